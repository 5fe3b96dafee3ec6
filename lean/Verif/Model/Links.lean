import Verif.Model.Cli
/- The files of the command line program once more, in a file system with symbolic links. -/
namespace Ribzip2

/-- What a name stands for. -/
inductive Name where
  /-- a file, by its number -/
  | file (i : Nat)
  /-- a symbolic link, by the path it points to -/
  | link (target : Path)
  deriving DecidableEq, Repr

/-- A file system with symbolic links. Simplifications: as for `FileSys`, and only whole paths are links (a link in the
middle of a path is a matter of how the path is written); the target of a link is given as the path it stands for. -/
structure LinkSys where
  entry : Path → Option Name
  data : Nat → List UInt8
  next : Nat

/-- Path resolution: links are followed, at most `n` of them; then the system reports an error (`ELOOP`, here `none`). -/
def LinkSys.follow (fs : LinkSys) : Nat → Path → Option Path
  | 0, p =>
    match fs.entry p with
    | some (Name.link _) => none
    | _ => some p
  | n + 1, p =>
    match fs.entry p with
    | some (Name.link q) => fs.follow n q
    | _ => some p

/-- The number of links Linux follows (`MAXSYMLINKS`). -/
def maxLinks : Nat := 40

/-- The file a path leads to: what `File::open` opens (cli/src/main.rs:71); `Path::exists` (cli/src/main.rs:63) says whether there
is one (it uses `stat`, which follows links, and every error counts as "no"). -/
def LinkSys.lookup (fs : LinkSys) (p : Path) : Option Nat :=
  match fs.follow maxLinks p with
  | none => none
  | some q =>
    match fs.entry q with
    | some (Name.file i) => some i
    | _ => none

/-- `File::create` (cli/src/main.rs:66): `open` with `O_CREAT` and `O_TRUNC` but without `O_EXCL`, which follows links, also those
that point nowhere. -/
def LinkSys.create (fs : LinkSys) (p : Path) : Option (LinkSys × Nat) :=
  match fs.follow maxLinks p with
  | none => none
  | some q =>
    match fs.entry q with
    | some (Name.file i) => some ({ fs with data := fun j => if j = i then [] else fs.data j }, i)
    | _ => some ({ entry := fun r => if r = q then some (Name.file fs.next) else fs.entry r,
                   data := fun j => if j = fs.next then [] else fs.data j,
                   next := fs.next + 1 }, fs.next)

/-- The content of a file is replaced. -/
def LinkSys.put (fs : LinkSys) (i : Nat) (bytes : List UInt8) : LinkSys :=
  { fs with data := fun j => if j = i then bytes else fs.data j }

/-- One iteration of the loops of cli/src/main.rs:78-84 and 91-123, with `open_file` and `create_file` (main.rs:62-73), in a file
system with links. Simplification: no other process does anything (the fields of `env` for this are not used). -/
def Command.oneLinks (c : Command) (env : ArgEnv) (p : Path) (fs : LinkSys) : LinkSys × Outcome :=
  match fs.lookup p, env.openOk with
  | some i, true =>
    match fs.lookup (c.outName p) with
    | some _ => (fs, Outcome.fileError)
    | none =>
      if env.createOk then
        match fs.create (c.outName p) with
        | some (fs', j) =>
          match c.run (env.reader (fs.data i)) env.script with
          | (bytes, o) => (fs'.put j bytes, o)
        | none => (fs, Outcome.fileError)
      else (fs, Outcome.fileError)
  | _, _ => (fs, Outcome.fileError)

/-- cli/src/main.rs:75-136 `try_main` and `main` in a file system with links: the arguments in order, up to the first that does
not succeed. -/
def Command.mainLinks (c : Command) : List (Path × ArgEnv) → LinkSys → LinkSys × Outcome
  | [], fs => (fs, Outcome.ok)
  | (p, env) :: rest, fs =>
    match c.oneLinks env p fs with
    | (fs, Outcome.ok) => c.mainLinks rest fs
    | (fs, o) => (fs, o)

end Ribzip2
