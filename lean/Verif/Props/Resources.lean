import Verif.Proofs.Resources
import Verif.Props.Threads
/- Properties C59 and C60: what the threads of `encode_stream` hold, and that they end. -/
namespace Ribzip2
open Spec

/-! ### C59 -/

/-- **C59.** At every moment of every execution (any reader, failing ones included, any writer, strategy,
thread count and schedule): there are exactly `t` workers; each of them has at most one block (waiting in its
channel, being compressed, or compressed and waiting to be written), so that at most `t` blocks are in memory
together, however long the input is; and no such block has more than 900005 bytes before compression. -/
theorem C59_memory_is_bounded (dist : Distance) (strategy : Strategy) (r : Reader) (w : Writer) (t : Nat)
    (s : Sys) (h : EncodeReaches dist strategy r w t s) :
    s.workers.length = t ∧
    (∀ wk ∈ s.workers, wk.inbox.length + (if wk.busy.isSome then 1 else 0) + wk.outbox.length ≤ 1) ∧
    (s.workers.map fun wk => wk.inbox.length + (if wk.busy.isSome then 1 else 0) + wk.outbox.length).sum ≤ t ∧
    (∀ wk ∈ s.workers, ∀ work, work ∈ wk.inbox ∨ wk.busy = some work → work.rleTotal.length ≤ 900005) := by
  obtain ⟨h1, h2⟩ := reach_light _ _ r w t s h
  refine ⟨h1, fun wk hwk => (h2 wk hwk).load, ?_, ?_⟩
  · have := sum_le_of_le_one s.workers WorkerState.load 1 (fun x hx => (h2 x hx).load)
    rw [h1, Nat.mul_one] at this
    exact this
  · intro wk hwk work hw
    rcases hw with hw | hw
    · exact (h2 wk hwk).inbox work hw
    · exact (h2 wk hwk).busy work hw

/-- A state with two threads and two blocks in flight is reached (the reader reports an end of file and then
an error, which ends the first block, and goes on): the bound `t` is met. -/
example : ∃ s, EncodeReaches (fun _ _ => 0) Strategy.single
      ⟨[REvent.data [104], REvent.data [], REvent.fail, REvent.data [105]], false⟩ Writer.empty 2 s ∧
    (s.workers.map fun wk => wk.inbox.length + (if wk.busy.isSome then 1 else 0) + wk.outbox.length).sum = 2 := by
  refine ⟨_, Reach.step _ _ (Reach.step _ _ (Reach.step _ _ Reach.init (Step.main _ _ rfl)) (Step.main _ _ rfl))
    (Step.main _ _ rfl), by decide +kernel⟩

/-! ### C60 -/

/-- The workers after the call has ended: each step brings one of them nearer to its end. -/
theorem ended_step (dist : Distance) (strategy : Strategy) (ft : Bool) (s s' : Sys) (res : Res Unit)
    (he : s.pc = MainPc.done res)
    (hs : Step (fun work => generateBlockData dist strategy work.crc work.rleTotal) ft s s') :
    s'.pc = s.pc ∧ s'.bw = s.bw ∧ s'.events = s.events ∧ workersPot s'.workers < workersPot s.workers := by
  cases hs with
  | main _ hm => simp [mainStep, he] at hm
  | worker i wk wk' hi hw =>
    have h1 := workerStep_pot _ _ wk wk' (fun work _ => generateBlockData_ne_div dist strategy _ _) hw
    have h2 := workersPot_set s.workers i wk wk' hi
    refine ⟨rfl, rfl, rfl, ?_⟩
    dsimp only
    omega

/-- **C60**, part 1: whatever happened before and however the call ended (normally or by a panic), the worker
threads do not go on forever: there is no infinite execution from a state in which the call has ended. -/
theorem C60_workers_stop (dist : Distance) (strategy : Strategy) (ft : Bool) (f : Nat → Sys) (res : Res Unit)
    (he : (f 0).pc = MainPc.done res) :
    ¬ ∀ k, Step (fun work => generateBlockData dist strategy work.crc work.rleTotal) ft (f k) (f (k + 1)) := by
  intro hstep
  have hpc : ∀ k, (f k).pc = MainPc.done res := by
    intro k
    induction k with
    | zero => exact he
    | succ k ih => exact (ended_step dist strategy ft _ _ res ih (hstep k)).1.trans ih
  have hdec : ∀ k, workersPot (f k).workers + k ≤ workersPot (f 0).workers := by
    intro k
    induction k with
    | zero => omega
    | succ k ih =>
      have := (ended_step dist strategy ft _ _ res (hpc k) (hstep k)).2.2.2
      omega
  have := hdec (workersPot (f 0).workers + 1)
  omega

/-- **C60**, part 2: a worker that is still running after the call has ended can always take a step (it is
not blocked), so that an execution can only stop when every worker thread has ended: no thread is left
behind. -/
theorem C60_no_thread_left_behind (dist : Distance) (strategy : Strategy) (ft : Bool) (s : Sys)
    (res : Res Unit) (he : s.pc = MainPc.done res)
    (hstuck : ∀ s', ¬ Step (fun work => generateBlockData dist strategy work.crc work.rleTotal) ft s s') :
    ∀ wk ∈ s.workers, wk.alive = false := by
  intro wk hwk
  obtain ⟨i, hi⟩ := List.getElem?_of_mem hwk
  cases ha : wk.alive with
  | false => rfl
  | true =>
    exfalso
    have hend : s.ended = true := by simp [Sys.ended, he]
    have : ∃ wk', workerStep (fun work => generateBlockData dist strategy work.crc work.rleTotal) s.ended wk
        = some wk' := by
      unfold workerStep
      rw [hend, if_pos ha]
      split
      · split <;> simp
      · split <;> simp
    obtain ⟨wk', hw⟩ := this
    exact hstuck _ (Step.worker s i wk wk' hi hw)

/-- **C60**, part 3: what the workers still do then is not observable: nothing more is read or written, and
the result stays. -/
theorem C60_nothing_is_written_afterwards (dist : Distance) (strategy : Strategy) (ft : Bool) (s s' : Sys)
    (res : Res Unit) (he : s.pc = MainPc.done res)
    (h : Reach (fun work => generateBlockData dist strategy work.crc work.rleTotal) ft s s') :
    s'.pc = MainPc.done res ∧ s'.bw = s.bw ∧ s'.events = s.events := by
  induction h with
  | init => exact ⟨he, rfl, rfl⟩
  | step a b _ hs ih =>
    obtain ⟨i1, i2, i3⟩ := ih
    obtain ⟨e1, e2, e3, -⟩ := ended_step dist strategy ft a b res i1 hs
    exact ⟨e1.trans i1, e2.trans i2, e3.trans i3⟩

/-- **C60**, together: from every state of a call with at least one thread and a reader that comes to an end
of file, the call ends and after it every worker thread does. -/
theorem C60_all_threads_end (dist : Distance) (strategy : Strategy) (es : List REvent) (w : Writer)
    (t : Nat) (ht : 1 ≤ t) (s : Sys) (h : EncodeReaches dist strategy ⟨es, false⟩ w t s) :
    ∃ s' res, Reach (fun work => generateBlockData dist strategy work.crc work.rleTotal) false s s' ∧
      s'.pc = MainPc.done res ∧ s'.workers.length = t ∧ ∀ wk ∈ s'.workers, wk.alive = false := by
  obtain ⟨s1, res, h1, h2⟩ := C03_the_end_is_reached dist strategy es w t ht s h
  have trans : ∀ {a b c : Sys}, Reach (fun work => generateBlockData dist strategy work.crc work.rleTotal) false a b →
      Reach (fun work => generateBlockData dist strategy work.crc work.rleTotal) false b c →
      Reach (fun work => generateBlockData dist strategy work.crc work.rleTotal) false a c := by
    intro a b c hab hbc
    induction hbc with
    | init => exact hab
    | step x y _ hxy ih => exact Reach.step _ _ ih hxy
  have key : ∀ p (x : Sys), workersPot x.workers = p → x.pc = MainPc.done res →
      ∃ y, Reach (fun work => generateBlockData dist strategy work.crc work.rleTotal) false x y ∧
        y.pc = MainPc.done res ∧ ∀ wk ∈ y.workers, wk.alive = false := by
    intro p
    induction p using Nat.strongRecOn with
    | _ p ih =>
      intro x hx hp
      by_cases hst : ∃ y, Step (fun work => generateBlockData dist strategy work.crc work.rleTotal) false x y
      · obtain ⟨y, hy⟩ := hst
        obtain ⟨e1, -, -, e4⟩ := ended_step dist strategy false x y res hp hy
        obtain ⟨z, z1, z2, z3⟩ := ih _ (by omega) y rfl (e1.trans hp)
        exact ⟨z, trans (Reach.step _ _ Reach.init hy) z1, z2, z3⟩
      · exact ⟨x, Reach.init, hp, C60_no_thread_left_behind dist strategy false x res hp
          (fun y hy => hst ⟨y, hy⟩)⟩
  obtain ⟨s2, k1, k2, k3⟩ := key _ s1 rfl h2
  refine ⟨s2, res, trans h1 k1, k2, ?_, k3⟩
  exact (C59_memory_is_bounded dist strategy ⟨es, false⟩ w t s2 (trans h (trans h1 k1))).1

/-- The hypotheses are met: two threads on "hi", from the start. -/
example : ∃ s' res, Reach (fun work => generateBlockData (fun _ _ => 0) Strategy.single work.crc work.rleTotal)
      false (Sys.init (Reader.ofBytes [104, 105]) Writer.empty 2) s' ∧
      s'.pc = MainPc.done res ∧ s'.workers.length = 2 ∧ ∀ wk ∈ s'.workers, wk.alive = false :=
  C60_all_threads_end (fun _ _ => 0) Strategy.single [REvent.data [104, 105]] Writer.empty 2 (by omega) _ Reach.init

end Ribzip2
