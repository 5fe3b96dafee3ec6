import Verif.Model.Cli
/- The command line program once more, with the message it prints when it stops with status 1. -/
namespace Ribzip2

/-- cli/src/main.rs:37-41 `FileError`. Of an `std::io::Error` only the text matters. -/
inductive FileErr where
  | duplicate (p : Path)
  | io (text : List UInt8)
  deriving Repr, DecidableEq

/-- `Output file ` -/
def outputFile : List UInt8 := [79, 117, 116, 112, 117, 116, 32, 102, 105, 108, 101, 32]

/-- ` already exists` -/
def alreadyExists : List UInt8 := [32, 97, 108, 114, 101, 97, 100, 121, 32, 101, 120, 105, 115, 116, 115]

/-- cli/src/main.rs:43-52 `impl Display for FileError`. Simplification: `Path::display` prints the path as it is,
which is the case if it is UTF-8. -/
def FileErr.display : FileErr → List UInt8
  | FileErr.duplicate p => outputFile ++ p ++ alreadyExists
  | FileErr.io text => text

/-- cli/src/main.rs:62-68 `create_file`, on the path `out`, between the actions of other processes (see `ArgEnv`).
`sys` is the text of the system's error for a path. -/
def createFileE (sys : Path → List UInt8) (env : ArgEnv) (out : Path) (fs : FileSys) :
    FileSys × Except FileErr Nat :=
  let fs := env.beforeCheck fs
  match fs.dir out with
  | some _ => (fs, Except.error (FileErr.duplicate out))
  | none =>
    let fs := env.beforeCreate fs
    if env.createOk then
      match fs.create out with
      | (fs, j) => (fs, Except.ok j)
    else (fs, Except.error (FileErr.io (sys out)))

/-- cli/src/main.rs:70-73 `open_file`; the result is the content. -/
def openFileE (sys : Path → List UInt8) (env : ArgEnv) (p : Path) (fs : FileSys) : Except FileErr (List UInt8) :=
  match fs.dir p, env.openOk with
  | some i, true => Except.ok (fs.data i)
  | _, _ => Except.error (FileErr.io (sys p))

/-- One iteration of the loops of cli/src/main.rs:78-84 and 91-123, with the error that `?` returns. -/
def Command.oneE (sys : Path → List UInt8) (c : Command) (env : ArgEnv) (p : Path) (w : World) :
    World × Except FileErr Outcome :=
  let fs := env.before w.fs
  match openFileE sys env p fs with
  | Except.error e => ({ w with fs := fs }, Except.error e)
  | Except.ok input =>
    match createFileE sys env (c.outName p) fs with
    | (fs, Except.error e) => ({ w with fs := fs }, Except.error e)
    | (fs, Except.ok j) =>
      match c.run (env.reader input) env.script with
      | (bytes, o) => (⟨fs.put j bytes, j :: j :: w.touched⟩, Except.ok o)

/-- cli/src/main.rs:75-136 `try_main` and `main`, with the lines given to `eprintln!` (main.rs:133). The message of a
panic is not included. -/
def Command.mainE (sys : Path → List UInt8) (c : Command) :
    List (Path × ArgEnv) → World → World × Outcome × List (List UInt8)
  | [], w => (w, Outcome.ok, [])
  | (p, env) :: rest, w =>
    match c.oneE sys env p w with
    | (w, Except.ok Outcome.ok) => c.mainE sys rest w
    | (w, Except.ok o) => (w, o, [])
    | (w, Except.error e) => (w, Outcome.fileError, [e.display])

end Ribzip2
