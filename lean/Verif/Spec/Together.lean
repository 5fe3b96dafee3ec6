import Verif.Model.Together
import Verif.Spec.Cli
/- Vocabulary for several runs of the program at the same time. -/
namespace Ribzip2.Spec
open Together

/-- No input is the output of another run. -/
def Unrelated (jobs : List Job) : Prop :=
  ∀ (k l : Nat) (j j' : Job), k ≠ l → jobs[k]? = some j → jobs[l]? = some j' → j.path ≠ j'.out

/-- Different runs have different output paths. -/
def DifferentOutputs (jobs : List Job) : Prop :=
  ∀ (k l : Nat) (j j' : Job), k ≠ l → jobs[k]? = some j → jobs[l]? = some j' → j.out ≠ j'.out

/-- No two runs with the same output path stand between `exists()` and `File::create`. -/
def Apart (jobs : List Job) (s : State) : Prop :=
  ∀ (k l : Nat) (j j' : Job) (a b : List UInt8), k ≠ l → jobs[k]? = some j → jobs[l]? = some j' → j.out = j'.out →
    s.pcs[k]? = some (Pc.checked a) → s.pcs[l]? ≠ some (Pc.checked b)

/-- What can be reached if the runs do not meet between `exists()` and `File::create`. -/
inductive ReachApart (jobs : List Job) (fs0 : FileSys) : State → Prop where
  | init : ReachApart jobs fs0 ⟨fs0, List.replicate jobs.length Pc.start⟩
  | step (s s' : State) (h : ReachApart jobs fs0 s) (hs : Together.Step jobs s s') (ha : Apart jobs s') :
      ReachApart jobs fs0 s'

/-- The same run when it is alone. -/
def aloneEnv (j : Job) : ArgEnv where
  before := id
  openOk := j.openOk
  reader := j.reader
  beforeCheck := id
  beforeCreate := id
  createOk := j.createOk
  script := j.script

end Ribzip2.Spec
