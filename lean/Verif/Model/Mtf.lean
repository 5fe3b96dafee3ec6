import Verif.Model.Basic
/- Model of lib/src/block/mtf.rs. -/
namespace Ribzip2

/-- lib/src/block/mtf.rs:41-44 `bring_to_front_of_dict`. -/
def bringToFront (position : Nat) (dict : List UInt8) : Res (List UInt8) := do
  let el ← idx dict position
  pure (el :: dict.eraseIdx position)

/-- lib/src/block/mtf.rs:46-55 `find_pos`, from position `position` on: the first position holding
`i`; `unreachable!()` (a panic) if there is none.  `position` is a `u8` in Rust; it stays below 256
because the dictionary has at most 256 entries (an overflow would be a panic like the
`unreachable!` that follows it). -/
def findPos (i : UInt8) : List UInt8 → Nat → Res UInt8
  | [], _ => Res.panic
  | d :: ds, position => if d = i then Res.ok (UInt8.ofNat position) else findPos i ds (position + 1)

/-- lib/src/block/mtf.rs:25-28: the 256 flags of used bytes. -/
def usedFlags (input : List UInt8) : List Bool :=
  input.foldl (fun dict i => dict.set i.toNat true) (List.replicate 256 false)

/-- lib/src/block/mtf.rs:29-34: the positions of the set flags. -/
def usedSymbols (input : List UInt8) : List UInt8 :=
  ((usedFlags input).zipIdx.filter (fun x => x.1)).map (fun x => UInt8.ofNat x.2)

/-- lib/src/block/mtf.rs:24-39 `create_dict`: dictionary (sorted copy) and used symbols. -/
def createDict (input : List UInt8) : List UInt8 × List UInt8 :=
  let used := usedSymbols input
  (stableSort (fun a b => a ≤ b) used, used)

/-- The loop of lib/src/block/mtf.rs:12-16. -/
def mtfLoop : List UInt8 → List UInt8 → Res (List UInt8)
  | [], _ => Res.ok []
  | value :: rest, dict => do
    let pos ← findPos value dict 0
    let dict' ← bringToFront pos.toNat dict
    let out ← mtfLoop rest dict'
    pure (pos :: out)

/-- lib/src/block/mtf.rs:8-22 `mtf`: (encoded, used_symbols). -/
def mtf (input : List UInt8) : Res (List UInt8 × List UInt8) := do
  let (dict, used) := createDict input
  let encoded ← mtfLoop input dict
  pure (encoded, used)

/-- The loop of lib/src/block/mtf.rs:61-71 (`u8::try_from(pos).unwrap()` fails above 255). -/
def inverseMtfLoop : List UInt8 → List UInt8 → Res (List UInt8)
  | [], _ => Res.ok []
  | i :: rest, dict => do
    let value ← idx dict i.toNat
    let pos ← Res.ofOption (dict.findIdx? (fun v => v == value))
    let pos ← if pos < 256 then Res.ok pos else Res.panic
    let dict' ← bringToFront pos dict
    let out ← inverseMtfLoop rest dict'
    pure (value :: out)

/-- lib/src/block/mtf.rs:57-73 `inverse_mtf`. -/
def inverseMtf (input dictionary : List UInt8) : Res (List UInt8) :=
  inverseMtfLoop input dictionary

end Ribzip2
