import Verif.Model.Links
import Verif.Spec.Cli
/- Vocabulary for a file system with symbolic links. -/
namespace Ribzip2.Spec

/-- A path leads to another one through links, however many. -/
inductive LeadsTo (fs : LinkSys) : Path → Path → Prop where
  | here (p : Path) : LeadsTo fs p p
  | link (p q r : Path) (h : fs.entry p = some (Name.link q)) (h' : LeadsTo fs q r) : LeadsTo fs p r

/-- Reading a path gives this: it leads to a file with this content (through at most 40 links, which is what Linux follows). -/
def contentVia (fs : LinkSys) (p : Path) : Option (List UInt8) := (fs.lookup p).map fs.data

/-- Every file in the file system has been created. -/
def LinksWellFormed (fs : LinkSys) : Prop := ∀ p i, fs.entry p = some (Name.file i) → i < fs.next

/-- The same file system, which has no links, in the sense of Model/Cli.lean. -/
def withoutLinks (fs : FileSys) : LinkSys := ⟨fun p => (fs.dir p).map Name.file, fs.data, fs.next⟩

end Ribzip2.Spec
