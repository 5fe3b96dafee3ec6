import Verif.Model.Bitwise
/- What reaches a writer that takes parts of buffers, takes nothing, or fails. -/
namespace Ribzip2.Spec

/-- What a writer with this script keeps of buffers that are offered to it one after the other, each once, until the
first error. -/
def kept : List WEvent → List (List UInt8) → List UInt8
  | _, [] => []
  | [], buf :: bufs => buf ++ kept [] bufs
  | WEvent.accept k :: s, buf :: bufs => buf.take k ++ kept s bufs
  | WEvent.fail :: _, _ :: _ => []

/-- The writer fails for one of `n` buffers. -/
def failsWithin (script : List WEvent) (n : Nat) : Bool := (script.take n).contains WEvent.fail

/-- The writer takes each of the first buffers completely. -/
def TakesAll (script : List WEvent) (bufs : List (List UInt8)) : Prop :=
  ∀ (i : Nat) (e : WEvent) (buf : List UInt8), script[i]? = some e → bufs[i]? = some buf →
    ∃ k, e = WEvent.accept k ∧ buf.length ≤ k

end Ribzip2.Spec
