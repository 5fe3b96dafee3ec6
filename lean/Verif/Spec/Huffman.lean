import Verif.Spec.Bits
/- Specification of canonical prefix codes. -/
namespace Ribzip2.Spec

/-- Numerator of the Kraft sum over the denominator `2^L`: `sum of 2^-l` is `kraft L ls / 2^L`. -/
def kraft (L : Nat) (ls : List Nat) : Nat := (ls.map fun l => 2 ^ (L - l)).sum

/-- Kraft's inequality: `sum of 2^-l ≤ 1` (for lengths at most `L`). -/
def KraftLe (L : Nat) (ls : List Nat) : Prop := (∀ l ∈ ls, l ≤ L) ∧ kraft L ls ≤ 2 ^ L

/-- Kraft's equality: the lengths are the leaf depths of a full binary tree. -/
def KraftEq (L : Nat) (ls : List Nat) : Prop := (∀ l ∈ ls, l ≤ L) ∧ kraft L ls = 2 ^ L

/-- Length of the code of symbol `s`. -/
def len (ls : List Nat) (s : Nat) : Nat := ls.getD s 0

/-- Canonical order of the symbols: by code length, then by symbol. -/
def codeBefore (ls : List Nat) (t s : Nat) : Bool :=
  decide (len ls t < len ls s) || (decide (len ls t = len ls s) && decide (t < s))

/-- The canonical code of `s`, as a number: codes are handed out in canonical order, each right
behind the previous one; a code `t` of smaller length takes up `2^(len s - len t)` of the numbers
with `len s` bits. -/
def codeValue (ls : List Nat) (s : Nat) : Nat :=
  (((List.range ls.length).filter fun t => codeBefore ls t s).map
    fun t => 2 ^ (len ls s - len ls t)).sum

/-- The canonical code of symbol `s`. -/
def codeBits (ls : List Nat) (s : Nat) : List Bool := natToBits (len ls s) (codeValue ls s)

/-- Full binary trees. -/
inductive Tree where
  | leaf
  | node (l r : Tree)

/-- Depths of the leaves from left to right, of a tree whose root is at depth `d`. -/
def leafDepths : Tree → Nat → List Nat
  | Tree.leaf, d => [d]
  | Tree.node l r, d => leafDepths l (d + 1) ++ leafDepths r (d + 1)

/-- Total weighted code length `sum of weight * length`. -/
def weightedLength (weights ls : List Nat) : Nat := (List.zipWith (· * ·) weights ls).sum

end Ribzip2.Spec
