import Verif.Model.Stream
/- Model of the threads of lib/src/stream/mod.rs: the main thread of `encode_stream` and its worker
threads, communicating over `std::sync::mpsc` channels.  A step of the system is a step of the main
thread or of one worker; the scheduler chooses, so that an execution is any sequence of steps.

Granularity: everything a thread does between two channel operations touches only its own variables
(and, in the main thread, the reader and the writer) and is one step; a channel operation is one step.
`gen` is what a worker computes (`generate_block_data`, which returns the checksum it was given). -/
namespace Ribzip2

/-- One worker, lib/src/stream/mod.rs:56-86: its two channels, the work it is busy with, whether its
thread is still running (a thread that panicked or left its loop has dropped its channel ends), and
the flag `pending` that the main thread keeps for it. -/
structure WorkerState where
  inbox : List Work
  busy : Option Work
  outbox : List (List Bit × BitVec 32)
  pending : Bool
  alive : Bool
  deriving Repr, DecidableEq

/-- Where the main thread is in lib/src/stream/mod.rs:105-180. -/
inductive MainPc where
  /-- before line 119: the header is not written yet -/
  | start
  /-- line 126, about to fill a block for worker `i` -/
  | sending (i : Nat)
  /-- line 171, about to look at worker `i` -/
  | flushing (i : Nat)
  /-- line 178: behind the loop -/
  | footer
  /-- the call has ended -/
  | done (r : Res Unit)
  deriving Repr, DecidableEq

/-- State of the whole system. -/
structure Sys where
  pc : MainPc
  events : List REvent
  fin : Bool
  bw : BitWriter
  crc : BitVec 32
  workers : List WorkerState
  deriving Repr, DecidableEq

/-- lib/src/stream/mod.rs:63-86 `WorkerThread::spawn`. -/
def WorkerState.spawn : WorkerState := ⟨[], none, [], false, true⟩

/-- lib/src/stream/mod.rs:111-117: the state after spawning `numThreads` workers. -/
def Sys.init (r : Reader) (w : Writer) (numThreads : Nat) : Sys :=
  ⟨MainPc.start, r.events, false, BitWriter.fromWriter w, 0, List.replicate numThreads WorkerState.spawn⟩

/-- The main thread has returned or unwound, so that its channel ends are dropped. -/
def Sys.ended (s : Sys) : Bool :=
  match s.pc with
  | MainPc.done _ => true
  | _ => false

/-- lib/src/stream/mod.rs:97-100 `send_work`: `send` fails exactly if the receiver is gone. -/
def sendWork (s : Sys) (i : Nat) (wk : WorkerState) (work : Work) : Sys :=
  if wk.alive then
    { s with workers := s.workers.set i { wk with inbox := wk.inbox ++ [work], pending := true },
             pc := MainPc.sending (i + 1) }
  else
    { s with workers := s.workers.set i { wk with pending := true }, pc := MainPc.done Res.panic }

/-- lib/src/stream/mod.rs:126-169: fill and send one block, or leave the loop. -/
def mainSend (failTail : Bool) (s : Sys) (i : Nat) : Sys :=
  match s.workers[i]? with
  | none => { s with pc := MainPc.flushing 0 }
  | some wk =>
    match nextBlock failTail s.events with
    | Res.ok (none, events, f) => { s with events := events, fin := s.fin || f, pc := MainPc.flushing 0 }
    | Res.ok (some work, events, f) =>
      sendWork { s with events := events, fin := s.fin || f } i wk work
    | Res.div => s
    | _ => { s with pc := MainPc.done Res.panic }

/-- lib/src/stream/mod.rs:171-175 and 89-95 `flush_work_buffer`; behind the last worker, line
121-124: leave the main loop if `finalize` is set.  `none`: blocked in `recv`. -/
def mainFlush (s : Sys) (i : Nat) : Option Sys :=
  match s.workers[i]? with
  | none => some { s with pc := if s.fin then MainPc.footer else MainPc.sending 0 }
  | some wk =>
    if wk.pending then
      match wk.outbox with
      | (bits, crc) :: rest =>
        let workers := s.workers.set i { wk with outbox := rest }
        match s.bw.writeBits bits with
        | (bw, Res.ok _) =>
          some { s with workers := s.workers.set i { wk with outbox := rest, pending := false }, bw := bw,
                        crc := combineCrc s.crc crc, pc := MainPc.flushing (i + 1) }
        | (bw, _) => some { s with workers := workers, bw := bw, pc := MainPc.done Res.panic }
      | [] => if wk.alive then none else some { s with pc := MainPc.done Res.panic }
    else some { s with pc := MainPc.flushing (i + 1) }

/-- lib/src/stream/mod.rs:119: write the header. -/
def mainHeader (s : Sys) : Sys :=
  match s.bw.writeBits fileHeader with
  | (bw, Res.ok _) => { s with bw := bw, pc := MainPc.sending 0 }
  | (bw, r) => { s with bw := bw, pc := MainPc.done r.unwrap }

/-- lib/src/stream/mod.rs:178-179: write the footer and flush the last bits. -/
def mainFooter (s : Sys) : Sys :=
  let x := andThen (match s.bw.writeBits (streamFooter s.crc) with | (bw, r) => (bw, r.unwrap)) fun bw _ =>
    match bw.finalize with | (bw, r) => (bw, r.unwrap)
  { s with bw := x.1, pc := MainPc.done x.2 }

/-- One step of the main thread; `none` if it is blocked or has ended. -/
def mainStep (failTail : Bool) (s : Sys) : Option Sys :=
  match s.pc with
  | MainPc.start => some (mainHeader s)
  | MainPc.sending i => some (mainSend failTail s i)
  | MainPc.flushing i => mainFlush s i
  | MainPc.footer => some (mainFooter s)
  | MainPc.done _ => none

/-- One step of a worker, lib/src/stream/mod.rs:69-79; `ended` tells whether the main thread has
dropped its channel ends.  `none` if the worker is blocked in `recv` or its thread has ended.  A
worker whose computation does not terminate stays where it is. -/
def workerStep (gen : Work → Res (List Bit)) (ended : Bool) (wk : WorkerState) : Option WorkerState :=
  if wk.alive then
    match wk.busy with
    | some work =>
      match gen work with
      | Res.ok bits =>
        if ended then some { wk with busy := none, alive := false }
        else some { wk with busy := none, outbox := wk.outbox ++ [(bits, work.crc)] }
      | Res.div => some wk
      | _ => some { wk with busy := none, alive := false }
    | none =>
      match wk.inbox with
      | work :: rest => some { wk with inbox := rest, busy := some work }
      | [] => if ended then some { wk with alive := false } else none
  else none

/-- One step of the system: of the main thread or of any one worker. -/
inductive Step (gen : Work → Res (List Bit)) (failTail : Bool) : Sys → Sys → Prop where
  | main (s s' : Sys) (h : mainStep failTail s = some s') : Step gen failTail s s'
  | worker (s : Sys) (i : Nat) (wk wk' : WorkerState) (hi : s.workers[i]? = some wk)
      (h : workerStep gen s.ended wk = some wk') :
      Step gen failTail s { s with workers := s.workers.set i wk' }

/-- The states some schedule can reach. -/
inductive Reach (gen : Work → Res (List Bit)) (failTail : Bool) (s₀ : Sys) : Sys → Prop where
  | init : Reach gen failTail s₀ s₀
  | step (s s' : Sys) (h : Reach gen failTail s₀ s) (hs : Step gen failTail s s') : Reach gen failTail s₀ s'

end Ribzip2
