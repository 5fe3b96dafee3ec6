import Verif.Model.Bitwise
import Verif.Spec.Bits
/- Vocabulary for readers and writers, on top of the scripts of the model. -/
namespace Ribzip2.Spec

/-- All bytes a script delivers. -/
def scriptBytes : List REvent → List UInt8
  | [] => []
  | REvent.data bs :: es => bs ++ scriptBytes es
  | REvent.intr :: es => scriptBytes es
  | REvent.fail :: es => scriptBytes es

/-- The script delivers data in non-empty pieces, with `Interrupted` results anywhere between them,
and no other error (`Ok(0)` only at the very end, when the script is exhausted). -/
def Steady (es : List REvent) : Prop :=
  ∀ e ∈ es, e = REvent.intr ∨ ∃ bs, bs ≠ [] ∧ e = REvent.data bs

/-- The bytes a script delivers before end of file or an error. -/
def delivered : List REvent → List UInt8
  | [] => []
  | REvent.intr :: es => delivered es
  | REvent.fail :: _ => []
  | REvent.data bs :: es => if bs.isEmpty then [] else bs ++ delivered es

/-- The bits a reader delivers before end of file or an error. -/
abbrev inputBits (r : Reader) : List Bool := bytesBits (delivered r.events)

/-- What happens on a reader, in order: the bytes it delivers, and `none` for each error. -/
def happenings : List REvent → List (Option UInt8)
  | [] => []
  | REvent.data bs :: es => bs.map some ++ happenings es
  | REvent.intr :: es => happenings es
  | REvent.fail :: es => none :: happenings es

/-- `c` are the bytes among the happenings, except that each error may have cost bytes delivered directly
before it, at most `m` of them. -/
inductive KeepsAllBut (m : Nat) : List (Option UInt8) → List UInt8 → Prop
  | done : KeepsAllBut m [] []
  | keep (b : UInt8) {hs : List (Option UInt8)} {c : List UInt8} :
      KeepsAllBut m hs c → KeepsAllBut m (some b :: hs) (b :: c)
  | error (lost : List UInt8) {hs : List (Option UInt8)} {c : List UInt8} :
      lost.length ≤ m → KeepsAllBut m hs c → KeepsAllBut m (lost.map some ++ none :: hs) c

end Ribzip2.Spec
