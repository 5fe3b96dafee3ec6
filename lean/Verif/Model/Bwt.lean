import Verif.Model.Basic
/- Model of lib/src/block/bwt/{duval,sais,bwt_internal,bwt_inverse}.rs. -/
namespace Ribzip2

/-! ### duval.rs -/

/-- The inner loop of lib/src/block/bwt/duval.rs:9-16; state `(j, k)`. -/
def duvalInner (input : List UInt8) (i : Nat) : Nat → Nat → Nat → Res (Nat × Nat)
  | 0, _, _ => Res.div
  | fuel + 1, j, k =>
    if j < input.length then do
      let a ← idx input k
      let b ← idx input j
      if a ≤ b then
        if a < b then duvalInner input i fuel (j + 1) i
        else duvalInner input i fuel (j + 1) (k + 1)
      else pure (j, k)
    else Res.ok (j, k)

/-- The loop of lib/src/block/bwt/duval.rs:17-21; state `(i, final_start)`. -/
def duvalAdvance (j k : Nat) : Nat → Nat → Nat → Res (Nat × Nat)
  | 0, _, _ => Res.div
  | fuel + 1, i, finalStart =>
    if i ≤ k then do
      let d ← subU j k
      duvalAdvance j k fuel (i + d) i
    else Res.ok (i, finalStart)

/-- The outer loop of lib/src/block/bwt/duval.rs:6-22. -/
def duvalOuter (input : List UInt8) : Nat → Nat → Nat → Res Nat
  | 0, _, _ => Res.div
  | fuel + 1, i, finalStart =>
    if i < input.length then do
      let (j, k) ← duvalInner input i (input.length + 1) (i + 1) i
      let (i, finalStart) ← duvalAdvance j k (input.length + 1) i finalStart
      duvalOuter input fuel i finalStart
    else Res.ok finalStart

/-- lib/src/block/bwt/duval.rs:1-24 `duval`. -/
def duval (input : List UInt8) : Res Nat := duvalOuter input (input.length + 1) 0 0

/-- lib/src/block/bwt/duval.rs:28-35 `rotate_duval` (`split_at` panics beyond the length). -/
def rotateDuval (input : List UInt8) : Res (List UInt8 × Nat) := do
  let offset ← duval input
  if offset ≤ input.length then pure (input.drop offset ++ input.take offset, offset)
  else Res.panic

/-! ### sais.rs.  `SuffixType::S` is `true`, `SuffixType::L` is `false`. -/

/-- The loop of lib/src/block/bwt/sais.rs:273-281, from the right: types of the positions of a
non-empty text; the last position is `L`. -/
def suffixTypesAux : List Nat → List Bool
  | [] => []
  | [_] => [false]
  | a :: b :: rest =>
    let tail := suffixTypesAux (b :: rest)
    (if a < b then true else if a = b then tail.headD false else false) :: tail

/-- lib/src/block/bwt/sais.rs:263-283 `get_suffix_types`: `n` computed entries, then `L` at
position `n`, then `S` at position `n + 1`. -/
def getSuffixTypes (text : List Nat) : List Bool := suffixTypesAux text ++ [false, true]

/-- lib/src/block/bwt/sais.rs:255-261 `get_bucket_sizes`. -/
def getBucketSizes : List Nat → List Nat → Res (List Nat)
  | [], sizes => Res.ok sizes
  | c :: rest, sizes => do
    let s ← idx sizes c
    let sizes ← setIdx sizes c (s + 1)
    getBucketSizes rest sizes

/-- lib/src/block/bwt/sais.rs:234-243 `get_bucket_heads` from running `offset` (initially 1). -/
def bucketHeadsFrom : Nat → List Nat → List Nat
  | _, [] => []
  | offset, s :: rest => offset :: bucketHeadsFrom (offset + s) rest

/-- lib/src/block/bwt/sais.rs:245-253 `get_bucket_tails` from running `offset` (initially 1). -/
def bucketTailsFrom : Nat → List Nat → List Nat
  | _, [] => []
  | offset, s :: rest => (offset + s - 1) :: bucketTailsFrom (offset + s) rest

/-- lib/src/block/bwt/sais.rs:226-232 `is_lms_character`. -/
def isLms (types : List Bool) (index : Nat) : Res Bool :=
  if index = 0 then Res.ok false
  else do
    let a ← idx types index
    if a then do
      let b ← idx types (index - 1)
      pure (!b)
    else pure false

/-- Placing `j` at its bucket tail: `sa[tails[text[j]]] = Some(j); tails[text[j]] -= 1`
(sais.rs:155-156, 204-205, 219-222). -/
def placeTail (text : List Nat) (j : Nat) (sa : List (Option Nat)) (tails : List Nat) :
    Res (List (Option Nat) × List Nat) := do
  let c ← idx text j
  let t ← idx tails c
  let sa ← setIdx sa t (some j)
  let t' ← subU t 1
  let tails ← setIdx tails c t'
  pure (sa, tails)

/-- Placing `j` at its bucket head (sais.rs:181-182). -/
def placeHead (text : List Nat) (j : Nat) (sa : List (Option Nat)) (heads : List Nat) :
    Res (List (Option Nat) × List Nat) := do
  let c ← idx text j
  let h ← idx heads c
  let sa ← setIdx sa h (some j)
  let heads ← setIdx heads c (h + 1)
  pure (sa, heads)

/-- The loop `for i in (0..text.len()).rev()` of lib/src/block/bwt/sais.rs:200-206; the first
argument is the number of positions still to visit. -/
def identifyLoop (text : List Nat) (types : List Bool) :
    Nat → List (Option Nat) → List Nat → Res (List (Option Nat))
  | 0, sa, _ => Res.ok sa
  | i + 1, sa, tails => do
    let lms ← isLms types i
    if lms then do
      let (sa, tails) ← placeTail text i sa tails
      identifyLoop text types i sa tails
    else identifyLoop text types i sa tails

/-- lib/src/block/bwt/sais.rs:191-207 `identify_lms_characters`, on the array of `n + 1` `None`s. -/
def identifyLms (text : List Nat) (types : List Bool) (bucketSizes : List Nat) :
    Res (List (Option Nat)) := do
  let sa ← setIdx (List.replicate (text.length + 1) none) 0 (some text.length)
  identifyLoop text types text.length sa (bucketTailsFrom 1 bucketSizes)

/-- `suffix_array[i].map(|n| n.checked_sub(1)).unwrap_or(None)` (sais.rs:145-147, 173-175). -/
def predecessor (e : Option Nat) : Option Nat :=
  match e with
  | some (j + 1) => some j
  | _ => none

/-- The loop `for i in 0..suffix_array.len()` of lib/src/block/bwt/sais.rs:172-188; first argument:
positions still to visit, second: current position. -/
def inductionLLoop (text : List Nat) (types : List Bool) :
    Nat → Nat → List (Option Nat) → List Nat → Res (List (Option Nat))
  | 0, _, sa, _ => Res.ok sa
  | k + 1, i, sa, heads => do
    let e ← idx sa i
    match predecessor e with
    | some j => do
      let t ← idx types j
      if t then inductionLLoop text types k (i + 1) sa heads
      else do
        let (sa, heads) ← placeHead text j sa heads
        inductionLLoop text types k (i + 1) sa heads
    | none => inductionLLoop text types k (i + 1) sa heads

/-- lib/src/block/bwt/sais.rs:165-189 `induction_sort_l`. -/
def inductionSortL (sa : List (Option Nat)) (text : List Nat) (types : List Bool)
    (bucketSizes : List Nat) : Res (List (Option Nat)) :=
  inductionLLoop text types sa.length 0 sa (bucketHeadsFrom 1 bucketSizes)

/-- The loop `for i in (0..suffix_array.len()).rev()` of lib/src/block/bwt/sais.rs:144-162. -/
def inductionSLoop (text : List Nat) (types : List Bool) :
    Nat → List (Option Nat) → List Nat → Res (List (Option Nat))
  | 0, sa, _ => Res.ok sa
  | i + 1, sa, tails => do
    let e ← idx sa i
    match predecessor e with
    | some j => do
      let t ← idx types j
      if t then do
        let (sa, tails) ← placeTail text j sa tails
        inductionSLoop text types i sa tails
      else inductionSLoop text types i sa tails
    | none => inductionSLoop text types i sa tails

/-- lib/src/block/bwt/sais.rs:137-163 `induction_sort_s`. -/
def inductionSortS (sa : List (Option Nat)) (text : List Nat) (types : List Bool)
    (bucketSizes : List Nat) : Res (List (Option Nat)) :=
  inductionSLoop text types sa.length sa (bucketTailsFrom 1 bucketSizes)

/-- The loop of lib/src/block/bwt/sais.rs:119-133. -/
def lmsEqualLoop (text : List Nat) (types : List Bool) (previous current : Nat) :
    Nat → Nat → Res Bool
  | 0, _ => Res.div
  | fuel + 1, i =>
    if i + current < text.length ∧ i + previous < text.length then do
      let isPrevious ← isLms types (previous + i)
      let isCurrent ← isLms types (current + i)
      if isPrevious && isCurrent then pure true
      else if isPrevious != isCurrent then pure false
      else do
        let a ← idx text (previous + i)
        let b ← idx text (current + i)
        if a ≠ b then pure false else lmsEqualLoop text types previous current fuel (i + 1)
    else Res.ok false

/-- lib/src/block/bwt/sais.rs:107-135 `are_lms_blocks_equal`. -/
def areLmsBlocksEqual (text : List Nat) (previous current : Nat) (types : List Bool) : Res Bool :=
  if previous = text.length ∨ current = text.length then Res.ok false
  else do
    let a ← idx text previous
    let b ← idx text current
    if a ≠ b then pure false else lmsEqualLoop text types previous current (text.length + 1) 1

/-- State of the loop of lib/src/block/bwt/sais.rs:71-87. -/
structure NameState where
  names : List (Option Nat)
  currentName : Nat
  previous : Nat
  count : Nat
  deriving Repr, DecidableEq

/-- The loop of lib/src/block/bwt/sais.rs:71-87 over the entries after the first. -/
def nameLoop (text : List Nat) (types : List Bool) :
    List (Option Nat) → NameState → Res NameState
  | [], s => Res.ok s
  | e :: rest, s => do
    let cur ← Res.ofOption e
    let lms ← isLms types cur
    if lms then do
      let eq ← areLmsBlocksEqual text s.previous cur types
      let name := if eq then s.currentName else s.currentName + 1
      let names ← setIdx s.names cur (some name)
      nameLoop text types rest ⟨names, name, cur, s.count + 1⟩
    else nameLoop text types rest s

/-- lib/src/block/bwt/sais.rs:285-289 `ReducedProblem`. -/
structure ReducedProblem where
  reducedText : List Nat
  offsets : List Nat
  alphabetSize : Nat
  deriving Repr, DecidableEq

/-- lib/src/block/bwt/sais.rs:60-105 `reduce_problem`.  The vectors `reduced_text` and `offsets` of
length `count` (lines 88-99) hold the named positions in increasing order, then zeros; more than
`count` named positions would be an out-of-range write. -/
def reduceProblem (sa : List (Option Nat)) (text : List Nat) (types : List Bool) :
    Res ReducedProblem := do
  let e ← idx sa 0
  let first ← Res.ofOption e
  let names ← setIdx (List.replicate (text.length + 1) none) first (some 0)
  let s ← nameLoop text types (sa.drop 1) ⟨names, 0, first, 1⟩
  let named := s.names.zipIdx.filterMap (fun p => p.1.map (fun name => (name, p.2)))
  let pad ← subU s.count named.length
  pure ⟨named.map (fun p => p.1) ++ List.replicate pad 0,
    named.map (fun p => p.2) ++ List.replicate pad 0, s.currentName + 1⟩

/-- The loop of lib/src/block/bwt/sais.rs:52-54 for `i` in `start .. start + k`. -/
def directLoop (reduced : List Nat) : Nat → Nat → List (Option Nat) → Res (List (Option Nat))
  | 0, _, sa => Res.ok sa
  | k + 1, i, sa => do
    let c ← idx reduced i
    let sa ← setIdx sa (c + 1) (some i)
    directLoop reduced k (i + 1) sa

/-- lib/src/block/bwt/sais.rs:48-56: the suffix array of a text with pairwise distinct characters. -/
def directSuffixArray (reduced : List Nat) : Res (List (Option Nat)) := do
  let sa ← setIdx (List.replicate (reduced.length + 1) (some 0)) 0 (some reduced.length)
  directLoop reduced (reduced.length - 1) 1 sa

/-- The loop `for i in (2..summary_suffix_array.len()).rev()` of lib/src/block/bwt/sais.rs:218-223;
argument: number of indices `i` still to visit (the index visited is `i + 2`). -/
def placeLoop (text : List Nat) (summary : List (Option Nat)) (offsets : List Nat) :
    Nat → List (Option Nat) → List Nat → Res (List (Option Nat))
  | 0, sa, _ => Res.ok sa
  | i + 1, sa, tails => do
    let e ← idx summary (i + 2)
    let r ← Res.ofOption e
    let charIndex ← idx offsets r
    let (sa, tails) ← placeTail text charIndex sa tails
    placeLoop text summary offsets i sa tails

/-- lib/src/block/bwt/sais.rs:209-224 `place_lms_characters`, on the array of `n + 1` `None`s. -/
def placeLms (text : List Nat) (bucketSizes : List Nat) (summary : List (Option Nat))
    (offsets : List Nat) : Res (List (Option Nat)) := do
  let sa ← setIdx (List.replicate (text.length + 1) none) 0 (some text.length)
  placeLoop text summary offsets (summary.length - 2) sa (bucketTailsFrom 1 bucketSizes)

/-- lib/src/block/bwt/sais.rs:21-45 `orchestrate_build_suffix_array`, with the choice of
`build_summary_suffix_array` (lines 47-58) inlined.  `fuel` bounds the recursion depth. -/
def buildSuffixArrayRec : Nat → List Nat → Nat → Res (List (Option Nat))
  | 0, _, _ => Res.div
  | fuel + 1, text, alphabetSize => do
    let types := getSuffixTypes text
    let bucketSizes ← getBucketSizes text (List.replicate alphabetSize 0)
    let sa ← identifyLms text types bucketSizes
    let sa ← inductionSortL sa text types bucketSizes
    let sa ← inductionSortS sa text types bucketSizes
    let summary ← reduceProblem sa text types
    let summarySa ←
      if summary.alphabetSize = summary.reducedText.length then directSuffixArray summary.reducedText
      else buildSuffixArrayRec fuel summary.reducedText summary.alphabetSize
    let sa ← placeLms text bucketSizes summarySa summary.offsets
    let sa ← inductionSortL sa text types bucketSizes
    inductionSortS sa text types bucketSizes

/-- `.map(|x| SuffixTableEntry { index: x.unwrap() })` (sais.rs:15-18). -/
def unwrapAll : List (Option Nat) → Res (List Nat)
  | [] => Res.ok []
  | e :: rest => do
    let x ← Res.ofOption e
    let xs ← unwrapAll rest
    pure (x :: xs)

/-- lib/src/block/bwt/sais.rs:13-19 `build_suffix_array`. -/
def buildSuffixArray (bytes : List UInt8) : Res (List Nat) := do
  let sa ← buildSuffixArrayRec (bytes.length + 1) (bytes.map UInt8.toNat) 256
  unwrapAll sa

/-! ### bwt_internal.rs -/

/-- lib/src/block/bwt/bwt_internal.rs:8-15: the byte before each suffix. -/
def bwtColumn (rotated : List UInt8) (len : Nat) : List Nat → Res (List UInt8)
  | [] => Res.ok []
  | x :: rest => do
    let index := if x > 0 then x - 1 else len - 1
    let b ← idx rotated index
    let more ← bwtColumn rotated len rest
    pure (b :: more)

/-- lib/src/block/bwt/bwt_internal.rs:3-37 `bwt_private` / `bwt`: (data, end_of_string).
`(len - shift) % len` panics for the empty string. -/
def bwt (string : List UInt8) : Res (List UInt8 × Nat) := do
  let (rotated, shift) ← rotateDuval string
  let entries ← buildSuffixArray rotated
  let len := string.length
  let kept := entries.filter (fun x => x < len)
  let column ← bwtColumn rotated len kept
  let d ← subU len shift
  if len = 0 then Res.panic
  else do
    let origPtr ← Res.ofOption (kept.findIdx? (fun x => x == d % len))
    pure (column, origPtr)

/-! ### bwt_inverse.rs -/

/-- lib/src/block/bwt/bwt_inverse.rs:3-4: positions with their bytes, stably sorted by byte. -/
def sortedPairs (data : List UInt8) : List (Nat × UInt8) :=
  stableSort (fun x y => x.2 ≤ y.2) (data.zipIdx.map (fun p => (p.2, p.1)))

/-- The loop of lib/src/block/bwt/bwt_inverse.rs:7-11. -/
def inverseBwtLoop (pairs : List (Nat × UInt8)) : Nat → Nat → Res (List UInt8)
  | 0, _ => Res.ok []
  | k + 1, start => do
    let pair ← idx pairs start
    let more ← inverseBwtLoop pairs k pair.1
    pure (pair.2 :: more)

/-- lib/src/block/bwt/bwt_inverse.rs:1-13 `inverse_bwt`. -/
def inverseBwt (data : List UInt8) (origPtr : Nat) : Res (List UInt8) := do
  let pairs := sortedPairs data
  let start ← Res.ofOption (pairs.find? (fun p => p.1 == origPtr))
  inverseBwtLoop pairs data.length start.1

end Ribzip2
