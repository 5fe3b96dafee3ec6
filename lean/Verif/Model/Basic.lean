/-
Common vocabulary of the model of torfmaster/ribzip2.

* `Res`   : Rust's `Result<_, ()>` together with panics and (for fuelled loops) non-termination.
* `Bit`   : lib/src/bitwise/mod.rs:4-8, `Zero = false`, `One = true`.
* `stableSort` : the (unique) result of Rust's stable `sort_by` / `sort`.
-/
namespace Ribzip2

/-- lib/src/bitwise/mod.rs:4-8 (`enum Bit { Zero, One }`), `Zero = false`, `One = true`. -/
abbrev Bit := Bool

/-- Outcome of a Rust computation: `ok` is normal return (or `Ok`), `err` is `Err(())`,
`panic` is an unwinding panic (index out of bounds, `unwrap` on `None`/`Err`, arithmetic
underflow/overflow as in a debug build, `unreachable!`), `div` means that the fuel of a modelled
loop ran out (the loop did not terminate within the fuel). -/
inductive Res (α : Type) where
  | ok (a : α)
  | err
  | panic
  | div
  deriving Repr, DecidableEq

namespace Res

/-- Sequencing: the first outcome that is not `ok` aborts the computation (`?` and unwinding). -/
@[inline] def bind {α β : Type} (x : Res α) (f : α → Res β) : Res β :=
  match x with
  | ok a => f a
  | err => err
  | panic => panic
  | div => div

instance : Monad Res where
  pure := Res.ok
  bind := Res.bind

@[simp] theorem pure_eq {α : Type} (a : α) : (pure a : Res α) = Res.ok a := rfl
@[simp] theorem ok_bind {α β : Type} (a : α) (f : α → Res β) : (Res.ok a >>= f) = f a := rfl
@[simp] theorem err_bind {α β : Type} (f : α → Res β) : ((Res.err : Res α) >>= f) = Res.err := rfl
@[simp] theorem panic_bind {α β : Type} (f : α → Res β) :
    ((Res.panic : Res α) >>= f) = Res.panic := rfl
@[simp] theorem div_bind {α β : Type} (f : α → Res β) : ((Res.div : Res α) >>= f) = Res.div := rfl

instance : LawfulMonad Res := LawfulMonad.mk' _
  (id_map := by intro α x; cases x <;> rfl)
  (pure_bind := by intros; rfl)
  (bind_assoc := by intro α β γ x f g; cases x <;> rfl)

/-- Rust's `.unwrap()` on a `Result<_, ()>`. -/
def unwrap {α : Type} : Res α → Res α
  | ok a => ok a
  | err => panic
  | panic => panic
  | div => div

@[simp] theorem unwrap_ok {α : Type} (a : α) : (Res.ok a).unwrap = Res.ok a := rfl
@[simp] theorem unwrap_err {α : Type} : (Res.err : Res α).unwrap = Res.panic := rfl
@[simp] theorem unwrap_panic {α : Type} : (Res.panic : Res α).unwrap = Res.panic := rfl
@[simp] theorem unwrap_div {α : Type} : (Res.div : Res α).unwrap = Res.div := rfl

/-- Rust's `.unwrap()` on an `Option`, and slice/`Vec`/`VecDeque` indexing `v[i]`. -/
def ofOption {α : Type} : Option α → Res α
  | some a => ok a
  | none => panic

@[simp] theorem ofOption_some {α : Type} (a : α) : ofOption (some a) = Res.ok a := rfl
@[simp] theorem ofOption_none {α : Type} : ofOption (none : Option α) = Res.panic := rfl

/-- `true` for a normal return. -/
def isOk {α : Type} : Res α → Bool
  | ok _ => true
  | _ => false

end Res

/-- Indexing `v[i]`: panics when out of bounds. -/
def idx {α : Type} (l : List α) (i : Nat) : Res α := Res.ofOption l[i]?

/-- `v[i] = x`: panics when out of bounds. -/
def setIdx {α : Type} (l : List α) (i : Nat) (x : α) : Res (List α) :=
  if i < l.length then Res.ok (l.set i x) else Res.panic

/-- `a - b` on `usize`: panics on underflow. -/
def subU (a b : Nat) : Res Nat := if b ≤ a then Res.ok (a - b) else Res.panic

/-- Insertion of the earlier element `a` into a sorted list of later elements. -/
def insertBy {α : Type} (le : α → α → Bool) (a : α) : List α → List α
  | [] => [a]
  | b :: l => if le a b then a :: b :: l else b :: insertBy le a l

/-- Rust's stable `sort_by`/`sort`: the output of a stable sort is determined by its input and the
order, so the algorithm (insertion sort here, driftsort/timsort in std) does not matter. -/
def stableSort {α : Type} (le : α → α → Bool) : List α → List α
  | [] => []
  | a :: l => insertBy le a (stableSort le l)

end Ribzip2
