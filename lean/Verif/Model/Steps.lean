import Verif.Model.Bwt
/- The block-sorting code with a step counter: the functions of Model/Bwt.lean, with a counter `c` as the last argument
and result that every execution of a loop body increases by one. (Allocations are not counted.) -/
namespace Ribzip2

/-! ### duval.rs -/

/-- lib/src/block/bwt/duval.rs:9-16, counted. -/
def duvalInnerC (input : List UInt8) (i : Nat) : Nat → Nat → Nat → Nat → Res ((Nat × Nat) × Nat)
  | 0, _, _, _ => Res.div
  | fuel + 1, j, k, c =>
    if j < input.length then do
      let a ← idx input k
      let b ← idx input j
      if a ≤ b then
        if a < b then duvalInnerC input i fuel (j + 1) i (c + 1)
        else duvalInnerC input i fuel (j + 1) (k + 1) (c + 1)
      else pure ((j, k), c)
    else Res.ok ((j, k), c)

/-- lib/src/block/bwt/duval.rs:17-21, counted. -/
def duvalAdvanceC (j k : Nat) : Nat → Nat → Nat → Nat → Res ((Nat × Nat) × Nat)
  | 0, _, _, _ => Res.div
  | fuel + 1, i, finalStart, c =>
    if i ≤ k then do
      let d ← subU j k
      duvalAdvanceC j k fuel (i + d) i (c + 1)
    else Res.ok ((i, finalStart), c)

/-- lib/src/block/bwt/duval.rs:6-22, counted. -/
def duvalOuterC (input : List UInt8) : Nat → Nat → Nat → Nat → Res (Nat × Nat)
  | 0, _, _, _ => Res.div
  | fuel + 1, i, finalStart, c =>
    if i < input.length then do
      let ((j, k), c) ← duvalInnerC input i (input.length + 1) (i + 1) i (c + 1)
      let ((i, finalStart), c) ← duvalAdvanceC j k (input.length + 1) i finalStart c
      duvalOuterC input fuel i finalStart c
    else Res.ok (finalStart, c)

/-- lib/src/block/bwt/duval.rs:1-24 `duval`, counted. -/
def duvalC (input : List UInt8) (c : Nat) : Res (Nat × Nat) := duvalOuterC input (input.length + 1) 0 0 c

/-! ### sais.rs -/

/-- lib/src/block/bwt/sais.rs:263-283 `get_suffix_types`, counted. -/
def suffixTypesAuxC : List Nat → Nat → List Bool × Nat
  | [], c => ([], c)
  | [_], c => ([false], c)
  | a :: b :: rest, c =>
    let (tail, c) := suffixTypesAuxC (b :: rest) c
    ((if a < b then true else if a = b then tail.headD false else false) :: tail, c + 1)

/-- lib/src/block/bwt/sais.rs:255-261 `get_bucket_sizes`, counted. -/
def getBucketSizesC : List Nat → List Nat → Nat → Res (List Nat × Nat)
  | [], sizes, c => Res.ok (sizes, c)
  | x :: rest, sizes, c => do
    let s ← idx sizes x
    let sizes ← setIdx sizes x (s + 1)
    getBucketSizesC rest sizes (c + 1)

/-- lib/src/block/bwt/sais.rs:234-243 `get_bucket_heads`, counted. -/
def bucketHeadsC : Nat → List Nat → Nat → List Nat × Nat
  | _, [], c => ([], c)
  | offset, s :: rest, c =>
    let (l, c) := bucketHeadsC (offset + s) rest (c + 1)
    (offset :: l, c)

/-- lib/src/block/bwt/sais.rs:245-253 `get_bucket_tails`, counted. -/
def bucketTailsC : Nat → List Nat → Nat → List Nat × Nat
  | _, [], c => ([], c)
  | offset, s :: rest, c =>
    let (l, c) := bucketTailsC (offset + s) rest (c + 1)
    ((offset + s - 1) :: l, c)

/-- lib/src/block/bwt/sais.rs:200-206, counted. -/
def identifyLoopC (text : List Nat) (types : List Bool) :
    Nat → List (Option Nat) → List Nat → Nat → Res (List (Option Nat) × Nat)
  | 0, sa, _, c => Res.ok (sa, c)
  | i + 1, sa, tails, c => do
    let lms ← isLms types i
    if lms then do
      let (sa, tails) ← placeTail text i sa tails
      identifyLoopC text types i sa tails (c + 1)
    else identifyLoopC text types i sa tails (c + 1)

/-- lib/src/block/bwt/sais.rs:191-207 `identify_lms_characters`, counted. -/
def identifyLmsC (text : List Nat) (types : List Bool) (bucketSizes : List Nat) (c : Nat) :
    Res (List (Option Nat) × Nat) := do
  let sa ← setIdx (List.replicate (text.length + 1) none) 0 (some text.length)
  let (tails, c) := bucketTailsC 1 bucketSizes c
  identifyLoopC text types text.length sa tails c

/-- lib/src/block/bwt/sais.rs:172-188, counted. -/
def inductionLLoopC (text : List Nat) (types : List Bool) :
    Nat → Nat → List (Option Nat) → List Nat → Nat → Res (List (Option Nat) × Nat)
  | 0, _, sa, _, c => Res.ok (sa, c)
  | k + 1, i, sa, heads, c => do
    let e ← idx sa i
    match predecessor e with
    | some j => do
      let t ← idx types j
      if t then inductionLLoopC text types k (i + 1) sa heads (c + 1)
      else do
        let (sa, heads) ← placeHead text j sa heads
        inductionLLoopC text types k (i + 1) sa heads (c + 1)
    | none => inductionLLoopC text types k (i + 1) sa heads (c + 1)

/-- lib/src/block/bwt/sais.rs:165-189 `induction_sort_l`, counted. -/
def inductionSortLC (sa : List (Option Nat)) (text : List Nat) (types : List Bool)
    (bucketSizes : List Nat) (c : Nat) : Res (List (Option Nat) × Nat) :=
  let (heads, c) := bucketHeadsC 1 bucketSizes c
  inductionLLoopC text types sa.length 0 sa heads c

/-- lib/src/block/bwt/sais.rs:144-162, counted. -/
def inductionSLoopC (text : List Nat) (types : List Bool) :
    Nat → List (Option Nat) → List Nat → Nat → Res (List (Option Nat) × Nat)
  | 0, sa, _, c => Res.ok (sa, c)
  | i + 1, sa, tails, c => do
    let e ← idx sa i
    match predecessor e with
    | some j => do
      let t ← idx types j
      if t then do
        let (sa, tails) ← placeTail text j sa tails
        inductionSLoopC text types i sa tails (c + 1)
      else inductionSLoopC text types i sa tails (c + 1)
    | none => inductionSLoopC text types i sa tails (c + 1)

/-- lib/src/block/bwt/sais.rs:137-163 `induction_sort_s`, counted. -/
def inductionSortSC (sa : List (Option Nat)) (text : List Nat) (types : List Bool)
    (bucketSizes : List Nat) (c : Nat) : Res (List (Option Nat) × Nat) :=
  let (tails, c) := bucketTailsC 1 bucketSizes c
  inductionSLoopC text types sa.length sa tails c

/-- lib/src/block/bwt/sais.rs:119-133, counted. -/
def lmsEqualLoopC (text : List Nat) (types : List Bool) (previous current : Nat) :
    Nat → Nat → Nat → Res (Bool × Nat)
  | 0, _, _ => Res.div
  | fuel + 1, i, c =>
    if i + current < text.length ∧ i + previous < text.length then do
      let isPrevious ← isLms types (previous + i)
      let isCurrent ← isLms types (current + i)
      if isPrevious && isCurrent then pure (true, c + 1)
      else if isPrevious != isCurrent then pure (false, c + 1)
      else do
        let a ← idx text (previous + i)
        let b ← idx text (current + i)
        if a ≠ b then pure (false, c + 1) else lmsEqualLoopC text types previous current fuel (i + 1) (c + 1)
    else Res.ok (false, c)

/-- lib/src/block/bwt/sais.rs:107-135 `are_lms_blocks_equal`, counted. -/
def areLmsBlocksEqualC (text : List Nat) (previous current : Nat) (types : List Bool) (c : Nat) : Res (Bool × Nat) :=
  if previous = text.length ∨ current = text.length then Res.ok (false, c)
  else do
    let a ← idx text previous
    let b ← idx text current
    if a ≠ b then pure (false, c) else lmsEqualLoopC text types previous current (text.length + 1) 1 c

/-- lib/src/block/bwt/sais.rs:71-87, counted. -/
def nameLoopC (text : List Nat) (types : List Bool) :
    List (Option Nat) → NameState → Nat → Res (NameState × Nat)
  | [], s, c => Res.ok (s, c)
  | e :: rest, s, c => do
    let cur ← Res.ofOption e
    let lms ← isLms types cur
    if lms then do
      let (eq, c) ← areLmsBlocksEqualC text s.previous cur types (c + 1)
      let name := if eq then s.currentName else s.currentName + 1
      let names ← setIdx s.names cur (some name)
      nameLoopC text types rest ⟨names, name, cur, s.count + 1⟩ c
    else nameLoopC text types rest s (c + 1)

/-- lib/src/block/bwt/sais.rs:60-105 `reduce_problem`, counted (the loop of lines 91-98 runs over all of `lms_names`). -/
def reduceProblemC (sa : List (Option Nat)) (text : List Nat) (types : List Bool) (c : Nat) :
    Res (ReducedProblem × Nat) := do
  let e ← idx sa 0
  let first ← Res.ofOption e
  let names ← setIdx (List.replicate (text.length + 1) none) first (some 0)
  let (s, c) ← nameLoopC text types (sa.drop 1) ⟨names, 0, first, 1⟩ c
  let named := s.names.zipIdx.filterMap (fun p => p.1.map (fun name => (name, p.2)))
  let pad ← subU s.count named.length
  pure (⟨named.map (fun p => p.1) ++ List.replicate pad 0,
    named.map (fun p => p.2) ++ List.replicate pad 0, s.currentName + 1⟩, c + s.names.length)

/-- lib/src/block/bwt/sais.rs:52-54, counted. -/
def directLoopC (reduced : List Nat) : Nat → Nat → List (Option Nat) → Nat → Res (List (Option Nat) × Nat)
  | 0, _, sa, c => Res.ok (sa, c)
  | k + 1, i, sa, c => do
    let x ← idx reduced i
    let sa ← setIdx sa (x + 1) (some i)
    directLoopC reduced k (i + 1) sa (c + 1)

/-- lib/src/block/bwt/sais.rs:48-56, counted. -/
def directSuffixArrayC (reduced : List Nat) (c : Nat) : Res (List (Option Nat) × Nat) := do
  let sa ← setIdx (List.replicate (reduced.length + 1) (some 0)) 0 (some reduced.length)
  directLoopC reduced (reduced.length - 1) 1 sa c

/-- lib/src/block/bwt/sais.rs:218-223, counted. -/
def placeLoopC (text : List Nat) (summary : List (Option Nat)) (offsets : List Nat) :
    Nat → List (Option Nat) → List Nat → Nat → Res (List (Option Nat) × Nat)
  | 0, sa, _, c => Res.ok (sa, c)
  | i + 1, sa, tails, c => do
    let e ← idx summary (i + 2)
    let r ← Res.ofOption e
    let charIndex ← idx offsets r
    let (sa, tails) ← placeTail text charIndex sa tails
    placeLoopC text summary offsets i sa tails (c + 1)

/-- lib/src/block/bwt/sais.rs:209-224 `place_lms_characters`, counted. -/
def placeLmsC (text : List Nat) (bucketSizes : List Nat) (summary : List (Option Nat))
    (offsets : List Nat) (c : Nat) : Res (List (Option Nat) × Nat) := do
  let sa ← setIdx (List.replicate (text.length + 1) none) 0 (some text.length)
  let (tails, c) := bucketTailsC 1 bucketSizes c
  placeLoopC text summary offsets (summary.length - 2) sa tails c

/-- lib/src/block/bwt/sais.rs:21-58 `orchestrate_build_suffix_array`, counted (every call is a step, too). -/
def buildSuffixArrayRecC : Nat → List Nat → Nat → Nat → Res (List (Option Nat) × Nat)
  | 0, _, _, _ => Res.div
  | fuel + 1, text, alphabetSize, c => do
    let (types, c) := suffixTypesAuxC text (c + 1)
    let types := types ++ [false, true]
    let (bucketSizes, c) ← getBucketSizesC text (List.replicate alphabetSize 0) c
    let (sa, c) ← identifyLmsC text types bucketSizes c
    let (sa, c) ← inductionSortLC sa text types bucketSizes c
    let (sa, c) ← inductionSortSC sa text types bucketSizes c
    let (summary, c) ← reduceProblemC sa text types c
    let (summarySa, c) ←
      if summary.alphabetSize = summary.reducedText.length then directSuffixArrayC summary.reducedText c
      else buildSuffixArrayRecC fuel summary.reducedText summary.alphabetSize c
    let (sa, c) ← placeLmsC text bucketSizes summarySa summary.offsets c
    let (sa, c) ← inductionSortLC sa text types bucketSizes c
    inductionSortSC sa text types bucketSizes c

/-- `.map(|x| SuffixTableEntry { index: x.unwrap() })` (lib/src/block/bwt/sais.rs:15-18), counted. -/
def unwrapAllC : List (Option Nat) → Nat → Res (List Nat × Nat)
  | [], c => Res.ok ([], c)
  | e :: rest, c => do
    let x ← Res.ofOption e
    let (xs, c) ← unwrapAllC rest (c + 1)
    pure (x :: xs, c)

/-- lib/src/block/bwt/sais.rs:13-19 `build_suffix_array`, counted (the conversion of the bytes is one step each). -/
def buildSuffixArrayC (bytes : List UInt8) (c : Nat) : Res (List Nat × Nat) := do
  let (sa, c) ← buildSuffixArrayRecC (bytes.length + 1) (bytes.map UInt8.toNat) 256 (c + bytes.length)
  unwrapAllC sa c

/-! ### bwt_internal.rs -/

/-- lib/src/block/bwt/bwt_internal.rs:8-15, counted. -/
def bwtColumnC (rotated : List UInt8) (len : Nat) : List Nat → Nat → Res (List UInt8 × Nat)
  | [], c => Res.ok ([], c)
  | x :: rest, c => do
    let index := if x > 0 then x - 1 else len - 1
    let b ← idx rotated index
    let (more, c) ← bwtColumnC rotated len rest (c + 1)
    pure (b :: more, c)

/-- lib/src/block/bwt/duval.rs:28-35 `rotate_duval`, counted (copying a byte is a step). -/
def rotateDuvalC (input : List UInt8) (c : Nat) : Res ((List UInt8 × Nat) × Nat) := do
  let (offset, c) ← duvalC input c
  if offset ≤ input.length then pure ((input.drop offset ++ input.take offset, offset), c + input.length)
  else Res.panic

/-- lib/src/block/bwt/bwt_internal.rs:3-37 `bwt`, counted; the two passes over `entries` with `filter` (lines 8-10
and 16-20) take a step for every entry. -/
def bwtC (string : List UInt8) (c : Nat) : Res ((List UInt8 × Nat) × Nat) := do
  let ((rotated, shift), c) ← rotateDuvalC string c
  let (entries, c) ← buildSuffixArrayC rotated c
  let len := string.length
  let kept := entries.filter (fun x => x < len)
  let (column, c) ← bwtColumnC rotated len kept (c + entries.length)
  let d ← subU len shift
  if len = 0 then Res.panic
  else do
    let origPtr ← Res.ofOption (kept.findIdx? (fun x => x == d % len))
    pure ((column, origPtr), c + entries.length)

end Ribzip2
