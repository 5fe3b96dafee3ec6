import Verif.Model.Cli
import Verif.Spec.Reader
/- Vocabulary for the properties of the command line program. -/
namespace Ribzip2.Spec

/-- A path that ends in the name of a file: the name is not empty, has no `/`, is not `.` or `..`, and is
preceded by nothing or by something that ends in `/`. -/
structure FilePath (dir name : List UInt8) : Prop where
  dirEnd : dir = [] ∨ ∃ d, dir = d ++ [slash]
  noSlash : slash ∉ name
  ne : name ≠ []
  ne1 : name ≠ [dot]
  ne2 : name ≠ [dot, dot]

/-- No other process does anything while the argument is processed. -/
def Alone (env : ArgEnv) : Prop :=
  ∀ fs, env.before fs = fs ∧ env.beforeCheck fs = fs ∧ env.beforeCreate fs = fs

/-- Every name in the file system belongs to a file that has been created. -/
def WellFormed (fs : FileSys) : Prop := ∀ p i, fs.dir p = some i → i < fs.next

/-- What other processes may do: create, rename, delete and rewrite files; numbers are not reused. -/
def Step (f : FileSys → FileSys) : Prop := ∀ fs, WellFormed fs → WellFormed (f fs) ∧ fs.next ≤ (f fs).next

/-- Other processes keep the file system well-formed. -/
def Civil (env : ArgEnv) : Prop := Step env.before ∧ Step env.beforeCheck ∧ Step env.beforeCreate

/-- The input is read without errors, in pieces of any size. -/
def ReadsAll (env : ArgEnv) : Prop :=
  ∀ bytes, ∃ es, env.reader bytes = ⟨es, false⟩ ∧ Steady es ∧ scriptBytes es = bytes

/-- No `write` call fails or takes nothing. -/
def NoFileError (s : List FEvent) : Prop := ∀ e ∈ s, e ≠ FEvent.fail ∧ e ≠ FEvent.accept 0

/-- The content of the file at a path. -/
def contentAt (fs : FileSys) (p : Path) : Option (List UInt8) := (fs.dir p).map fs.data

end Ribzip2.Spec
