import Verif.Model.Release
/- Model of cli/src/main.rs, with the parts of the standard library it uses: path names
(`Path::file_name`, `extension`, `PathBuf::set_extension`), `Path::exists`, `File::open`,
`File::create`, `BufWriter`. -/
namespace Ribzip2

/-! ### Path names (Unix, bytes) -/

/-- A path name. -/
abbrev Path := List UInt8

/-- `/`. -/
abbrev slash : UInt8 := 47
/-- `.`. -/
abbrev dot : UInt8 := 46

/-- std `Components` (from the back), on the reversed path: trailing `/` and `/.` are not components. -/
def dropTail : List UInt8 → List UInt8
  | 47 :: r => dropTail r
  | 46 :: 47 :: r => dropTail r
  | r => r

/-- std `Path::file_name`, with the part of the path before it: the last component, unless it is `..`,
a `.` at the beginning of the path, or missing. -/
def splitFileName (p : Path) : Option (Path × List UInt8) :=
  let r := dropTail p.reverse
  let name := (r.takeWhile (· ≠ slash)).reverse
  let dir := (r.dropWhile (· ≠ slash)).reverse
  if name = [] ∨ name = [dot] ∨ name = [dot, dot] then none else some (dir, name)

/-- std `rsplit_file_at_dot`: the part before and after the last dot. `none`: no dot, or only a leading
one. -/
def splitExtension (name : List UInt8) : Option (List UInt8 × List UInt8) :=
  let after := (name.reverse.takeWhile (· ≠ dot)).reverse
  let before := ((name.reverse.dropWhile (· ≠ dot)).drop 1).reverse
  if name.all (· ≠ dot) ∨ before = [] then none else some (before, after)

/-- std `Path::extension`. -/
def extension (p : Path) : Option (List UInt8) :=
  match splitFileName p with
  | none => none
  | some (_, name) =>
    match splitExtension name with
    | none => none
    | some (_, ext) => some ext

/-- std `PathBuf::set_extension`: the path is cut behind the file stem, then `.` and the new extension
are added unless it is empty. A path without file name stays as it is. -/
def setExtension (p : Path) (ext : List UInt8) : Path :=
  match splitFileName p with
  | none => p
  | some (dir, name) =>
    let stem := match splitExtension name with
      | none => name
      | some (before, _) => before
    dir ++ stem ++ (if ext = [] then [] else dot :: ext)

/-- `bz2`. -/
def bz2 : List UInt8 := [98, 122, 50]

/-- cli/src/main.rs:94-107: the name of the output of `compress`. -/
def compressName (p : Path) : Path :=
  match extension p with
  | some ext => setExtension p (ext ++ dot :: bz2)
  | none => setExtension p bz2

/-- cli/src/main.rs:80-81: the name of the output of `decompress`. -/
def decompressName (p : Path) : Path := setExtension p []

/-! ### Files -/

/-- The file system: names to file numbers (inodes), contents of each file, and the number of the next
file to be created. Simplifications: no links to links, no directories, one process's writes to a file
happen in one step. -/
structure FileSys where
  dir : Path → Option Nat
  data : Nat → List UInt8
  next : Nat

/-- `File::create` on a path: an existing file is truncated, otherwise a new one is made. -/
def FileSys.create (fs : FileSys) (p : Path) : FileSys × Nat :=
  match fs.dir p with
  | some i => ({ fs with data := fun j => if j = i then [] else fs.data j }, i)
  | none => ({ dir := fun q => if q = p then some fs.next else fs.dir q,
               data := fun j => if j = fs.next then [] else fs.data j,
               next := fs.next + 1 }, fs.next)

/-- The content of a file is replaced. -/
def FileSys.put (fs : FileSys) (i : Nat) (bytes : List UInt8) : FileSys :=
  { fs with data := fun j => if j = i then bytes else fs.data j }

/-- What one `write` system call does: it takes `k` bytes, is interrupted, or fails. -/
inductive FEvent where
  | accept (k : Nat)
  | intr
  | fail
  deriving Repr, DecidableEq

/-- std `BufWriter<File>`: what reached the file, the future of its `write` calls (complete when the
script has run out), the buffer. -/
structure BufFile where
  out : List UInt8
  script : List FEvent
  buf : List UInt8
  deriving Repr, DecidableEq

/-- std `BufWriter::flush_buf`: write until the buffer is empty; `Ok(0)` is the error `WriteZero`,
`Interrupted` is retried. -/
def flushBuf : List FEvent → List UInt8 → List UInt8 → BufFile × Bool
  | s, out, [] => (⟨out, s, []⟩, true)
  | [], out, b :: buf => (⟨out ++ b :: buf, [], []⟩, true)
  | FEvent.accept k :: s, out, b :: buf =>
    if k = 0 then (⟨out, s, b :: buf⟩, false)
    else flushBuf s (out ++ (b :: buf).take k) ((b :: buf).drop k)
  | FEvent.intr :: s, out, b :: buf => flushBuf s out (b :: buf)
  | FEvent.fail :: s, out, b :: buf => (⟨out, s, b :: buf⟩, false)

/-- std `BufWriter::with_capacity(8192)` (`DEFAULT_BUF_SIZE`). -/
def bufCapacity : Nat := 8192

/-- std `BufWriter::write` of one byte (the bit writer writes bytes one at a time, bitwriter.rs:49, 62):
into the buffer if it has room, else the buffer is flushed first. The flag says whether the call
was `Ok`. -/
def BufFile.push (f : BufFile) (b : UInt8) : BufFile × Bool :=
  if f.buf.length < bufCapacity then ({ f with buf := f.buf ++ [b] }, true)
  else
    match flushBuf f.script f.out f.buf with
    | (f', true) => ({ f' with buf := [b] }, true)
    | (f', false) => (f', false)

/-- Writing bytes until the first error. -/
def BufFile.pushAll (f : BufFile) : List UInt8 → BufFile × Bool
  | [] => (f, true)
  | b :: bs =>
    match f.push b with
    | (f', true) => f'.pushAll bs
    | (f', false) => (f', false)

/-- std `impl Drop for BufWriter`: flush, the error is ignored. -/
def BufFile.drop (f : BufFile) : BufFile := (flushBuf f.script f.out f.buf).1

/-- The answers of a `BufWriter` to `n` one-byte writes, as the script of a `Writer` of the library
model (they do not depend on the bytes). -/
def BufFile.answers : Nat → BufFile → List WEvent
  | 0, _ => []
  | n + 1, f =>
    match f.push 0 with
    | (f', true) => WEvent.accept 1 :: f'.answers n
    | (f', false) => WEvent.fail :: f'.answers n

/-- Number of one-byte writes after which the script of the file is used up, or one of them failed
(each refill of the buffer uses at least one event). -/
def BufFile.enough (f : BufFile) : Nat := (f.script.length + 1) * (bufCapacity + 1)

/-! ### try_main -/

/-- How the program ends: exit status 0, exit status 1 with a message (`FileError`), a panic (status 101),
or never. -/
inductive Outcome where
  | ok
  | fileError
  | panic
  | div
  deriving Repr, DecidableEq

/-- What the rest of the world does while one argument is processed. -/
structure ArgEnv where
  /-- other processes, before the input is opened -/
  before : FileSys → FileSys
  /-- the system allows opening the input -/
  openOk : Bool
  /-- how the reads go, from the content of the input at the time it is opened -/
  reader : List UInt8 → Reader
  /-- other processes, between opening the input and `exists()` -/
  beforeCheck : FileSys → FileSys
  /-- other processes, between `exists()` and `File::create` -/
  beforeCreate : FileSys → FileSys
  /-- the system allows creating the output -/
  createOk : Bool
  /-- the results of the `write` calls on the output -/
  script : List FEvent

/-- The world as the program changes it, with a record of the files it truncated or wrote. -/
structure World where
  fs : FileSys
  touched : List Nat

/-- cli/src/main.rs:62-73, 79-82, 92-109: open the input, determine the name of the output, check that it
does not exist, create it. Result: the bytes of the input and the number of the output file. -/
def openBoth (outName : Path → Path) (env : ArgEnv) (p : Path) (w : World) :
    World × Option (List UInt8 × Nat) :=
  let fs := env.before w.fs
  match fs.dir p, env.openOk with
  | some i, true =>
    let input := fs.data i
    let fs := env.beforeCheck fs
    match fs.dir (outName p) with
    | some _ => ({ w with fs := fs }, none)
    | none =>
      let fs := env.beforeCreate fs
      if env.createOk then
        match fs.create (outName p) with
        | (fs, j) => (⟨fs, j :: w.touched⟩, some (input, j))
      else ({ w with fs := fs }, none)
  | _, _ => ({ w with fs := fs }, none)

/-- cli/src/main.rs:110-122: compression into a `BufWriter`, which is dropped at the end, also when the
library panics (unwinding). A panic is caused by a write that failed (one more answer was used than
bytes were accepted) or by something else; a failed write may have flushed a part of the buffer. -/
def compressData (dist : Distance) (r : Reader) (threads : Nat) (strategy : Strategy)
    (script : List FEvent) : List UInt8 × Outcome :=
  let f : BufFile := ⟨[], script, []⟩
  match encodeStream dist r ⟨[], f.answers f.enough⟩ threads strategy with
  | (w, Res.ok _) => ((f.pushAll w.out).1.drop.out, Outcome.ok)
  | (w, Res.div) => ((f.pushAll w.out).1.out, Outcome.div)
  | (w, _) =>
    let f' := (f.pushAll w.out).1
    let f' := if w.out.length < f.enough - w.script.length then (f'.push 0).1 else f'
    (f'.drop.out, Outcome.panic)

/-- A `write` call on a `File` as the library sees it (`Interrupted` is an error like any other for a
plain `write`). -/
def FEvent.toWEvent : FEvent → WEvent
  | FEvent.accept k => WEvent.accept k
  | FEvent.intr => WEvent.fail
  | FEvent.fail => WEvent.fail

/-- cli/src/main.rs:83: `decode_stream(&mut in_file, out_file).unwrap()`. -/
def decompressData (r : Reader) (script : List FEvent) : List UInt8 × Outcome :=
  match decodeStream r ⟨[], script.map FEvent.toWEvent⟩ with
  | (w, Res.ok _) => (w.out, Outcome.ok)
  | (w, Res.err) => (w.out, Outcome.panic)
  | (w, Res.panic) => (w.out, Outcome.panic)
  | (w, Res.div) => (w.out, Outcome.div)

/-- cli/src/main.rs:83 in a build without overflow checks (`cargo build --release`, `cargo install`). -/
def Release.decompressData (r : Reader) (script : List FEvent) : List UInt8 × Outcome :=
  match Release.decodeStream r ⟨[], script.map FEvent.toWEvent⟩ with
  | (w, Res.ok _) => (w.out, Outcome.ok)
  | (w, Res.err) => (w.out, Outcome.panic)
  | (w, Res.panic) => (w.out, Outcome.panic)
  | (w, Res.div) => (w.out, Outcome.div)

/-- The two subcommands, cli/src/main.rs:10-24: `compress` with the number of threads after
`unwrap_or(num_cpus::get())` (main.rs:121) and the strategy after the match of main.rs:111-120 (the same in both kinds of
build, C87); `decompress` of a build with overflow checks, and `decompressRelease`, the same subcommand of a build
without. -/
inductive Command where
  | compress (threads : Nat) (strategy : Strategy)
  | decompress
  | decompressRelease
  deriving Repr, DecidableEq

/-- The name of the output. -/
def Command.outName : Command → Path → Path
  | Command.compress _ _ => compressName
  | Command.decompress => decompressName
  | Command.decompressRelease => decompressName

/-- The data of the output. -/
def Command.run : Command → Reader → List FEvent → List UInt8 × Outcome
  | Command.compress threads strategy, r, script => compressData euclid r threads strategy script
  | Command.decompress, r, script => decompressData r script
  | Command.decompressRelease, r, script => Release.decompressData r script

/-- One iteration of the loops of cli/src/main.rs:78-84 and 91-123. -/
def Command.one (c : Command) (env : ArgEnv) (p : Path) (w : World) : World × Outcome :=
  match openBoth c.outName env p w with
  | (w, none) => (w, Outcome.fileError)
  | (w, some (input, j)) =>
    match c.run (env.reader input) env.script with
    | (bytes, o) => (⟨w.fs.put j bytes, j :: w.touched⟩, o)

/-- cli/src/main.rs:75-136 `try_main` and `main`: the arguments in order, up to the first that does not succeed. -/
def Command.main (c : Command) : List (Path × ArgEnv) → World → World × Outcome
  | [], w => (w, Outcome.ok)
  | (p, env) :: rest, w =>
    match c.one env p w with
    | (w, Outcome.ok) => c.main rest w
    | (w, o) => (w, o)

/-- cli/src/main.rs:26-35 `EncodingOptions`. -/
inductive EncodingOptions where
  | single
  | kMeans (iterations numTables : Nat)
  deriving Repr, DecidableEq

/-- cli/src/main.rs:29-34: the subcommand `k-means` with the options `--iterations` and `--num-tables`, each
given or not (the defaults are those of the attributes). -/
def kMeansOf (iterations numTables : Option Nat) : EncodingOptions :=
  EncodingOptions.kMeans (iterations.getD 3) (numTables.getD 6)

/-- cli/src/main.rs:10-24 `Opt`, the parsed command line. -/
inductive Opt where
  | decompress (input : List Path)
  | compress (input : List Path) (threads : Option Nat) (encodingOptions : Option EncodingOptions)
  deriving Repr, DecidableEq

/-- cli/src/main.rs:111-120: the strategy for the options. -/
def cliStrategy : Option EncodingOptions → Strategy
  | some EncodingOptions.single => Strategy.single
  | none => Strategy.single
  | some (EncodingOptions.kMeans iterations numTables) => Strategy.blockWise numTables iterations

/-- cli/src/main.rs:121: `threads.unwrap_or(num_cpus::get())`. -/
def cliThreads (threads : Option Nat) (numCpus : Nat) : Nat := threads.getD numCpus

/-- cli/src/main.rs:75-136: the whole program on a parsed command line, on a machine with `numCpus`
processors; `envs i` is what the rest of the world does while file number `i` is processed. -/
def tryMain (numCpus : Nat) (opt : Opt) (envs : Nat → ArgEnv) (w : World) : World × Outcome :=
  match opt with
  | Opt.decompress input => Command.decompress.main (input.zipIdx.map fun x => (x.1, envs x.2)) w
  | Opt.compress input threads encodingOptions =>
    (Command.compress (cliThreads threads numCpus) (cliStrategy encodingOptions)).main
      (input.zipIdx.map fun x => (x.1, envs x.2)) w

/-- cli/src/main.rs:75-136 for a build without overflow checks. -/
def Release.tryMain (numCpus : Nat) (opt : Opt) (envs : Nat → ArgEnv) (w : World) : World × Outcome :=
  match opt with
  | Opt.decompress input => Command.decompressRelease.main (input.zipIdx.map fun x => (x.1, envs x.2)) w
  | Opt.compress input threads encodingOptions =>
    (Command.compress (cliThreads threads numCpus) (cliStrategy encodingOptions)).main
      (input.zipIdx.map fun x => (x.1, envs x.2)) w

end Ribzip2
