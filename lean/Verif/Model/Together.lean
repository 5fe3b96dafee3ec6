import Verif.Model.Cli
/- Several runs of the command line program at the same time, with the system calls of the runs interleaved in any order. -/
namespace Ribzip2.Together

/-- One run of the program with one argument (cli/src/main.rs:75-127; a run with more arguments is a sequence of such
runs), and how the system answers it: whether the input may be opened and the output be created, how the reads go, how the
writes go. -/
structure Job where
  cmd : Command
  path : Path
  openOk : Bool
  reader : List UInt8 → Reader
  createOk : Bool
  script : List FEvent

/-- The path of the output, cli/src/main.rs:80-81 and 94-107. -/
def Job.out (j : Job) : Path := j.cmd.outName j.path

/-- What the run writes, in the order of the positions, and how it ends, if the input file holds `input`
(cli/src/main.rs:83 and 110-122). -/
def Job.result (j : Job) (input : List UInt8) : List UInt8 × Outcome := j.cmd.run (j.reader input) j.script

/-- Where a run stands. -/
inductive Pc where
  /-- it has not opened the input -/
  | start
  /-- the input is open, its content is `input` -/
  | opened (input : List UInt8)
  /-- `exists()` has said no -/
  | checked (input : List UInt8)
  /-- the output is open as file number `file`, `offset` bytes have been written -/
  | writing (file offset : Nat) (input : List UInt8)
  /-- it has ended with a message (`FileError`), exit status 1 -/
  | refused
  /-- it has ended otherwise -/
  | ended (o : Outcome)
  deriving DecidableEq, Repr

/-- A byte is written at a position of a file: the file grows if necessary, with zeros up to the position (what POSIX says of
a write behind the end of a file, which happens if another process has truncated it). -/
def writeAt (d : List UInt8) (offset : Nat) (b : UInt8) : List UInt8 :=
  (d ++ List.replicate (offset + 1 - d.length) 0).set offset b

/-- The next thing a run does: cli/src/main.rs:70-73 `open_file`; main.rs:62-65 `exists()`; main.rs:66 `File::create`; then
writing. Bytes are written one at a time, which contains all ways in which the data may be split into `write` calls.
Simplification: the input has the content it had when it was opened (nobody writes to it). `none`: the run has
ended, or runs forever without writing. -/
def Job.next (j : Job) (fs : FileSys) : Pc → Option (FileSys × Pc)
  | Pc.start =>
    match fs.dir j.path, j.openOk with
    | some i, true => some (fs, Pc.opened (fs.data i))
    | _, _ => some (fs, Pc.refused)
  | Pc.opened input =>
    match fs.dir j.out with
    | some _ => some (fs, Pc.refused)
    | none => some (fs, Pc.checked input)
  | Pc.checked input =>
    if j.createOk then
      match fs.create j.out with
      | (fs, i) => some (fs, Pc.writing i 0 input)
    else some (fs, Pc.refused)
  | Pc.writing i offset input =>
    match (j.result input).1[offset]? with
    | some b => some (fs.put i (writeAt (fs.data i) offset b), Pc.writing i (offset + 1) input)
    | none =>
      match (j.result input).2 with
      | Outcome.div => none
      | o => some (fs, Pc.ended o)
  | Pc.refused => none
  | Pc.ended _ => none

/-- The file system and the positions of the runs. -/
structure State where
  fs : FileSys
  pcs : List Pc

/-- One of the runs does its next system call. -/
inductive Step (jobs : List Job) (s : State) : State → Prop where
  | step (k : Nat) (j : Job) (pc pc' : Pc) (fs' : FileSys) (hj : jobs[k]? = some j) (hpc : s.pcs[k]? = some pc)
      (h : j.next s.fs pc = some (fs', pc')) : Step jobs s ⟨fs', s.pcs.set k pc'⟩

/-- What can be reached from a file system when all runs start. -/
inductive Reach (jobs : List Job) (fs0 : FileSys) : State → Prop where
  | init : Reach jobs fs0 ⟨fs0, List.replicate jobs.length Pc.start⟩
  | step (s s' : State) (h : Reach jobs fs0 s) (hs : Step jobs s s') : Reach jobs fs0 s'

end Ribzip2.Together
