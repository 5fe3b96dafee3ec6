import Verif.Model.Stream
/- Model of lib/src/stream/mod.rs:212-224 once more, for callers that pass `&mut reader` and use the
reader afterwards: the same loops as in `Verif.Model.Stream`, which also say in which state the reader is
left. -/
namespace Ribzip2

/-- The loop of lib/src/stream/mod.rs:215-222, returning the bit reader when it ends at a footer. -/
def decodeLoopRest : Nat → BitReader → Writer → Writer × Res BitReader
  | 0, _, w => (w, Res.div)
  | fuel + 1, br, w =>
    match whatNext br with
    | Res.ok (BlockType.streamFooter, br) => (w, Res.ok br)
    | Res.ok (BlockType.blockHeader, br) =>
      match decodeBlock br w with
      | (w, Res.ok br) => decodeLoopRest fuel br w
      | (w, Res.err) => (w, Res.err)
      | (w, Res.panic) => (w, Res.panic)
      | (w, Res.div) => (w, Res.div)
    | Res.err => (w, Res.err)
    | Res.panic => (w, Res.panic)
    | Res.div => (w, Res.div)

/-- lib/src/stream/mod.rs:212-224 `decode_stream(&mut reader, writer)`: on Ok the byte reader as the call
leaves it.  (The bits of the current byte that were not used are dropped with the bit reader of line
224.) -/
def decodeStreamRest (r : Reader) (w : Writer) : Writer × Res Reader :=
  let br := BitReader.fromReader r
  match readFileHeader br with
  | Res.ok br =>
    match decodeLoopRest br.fuel br w with
    | (w, Res.ok br) => (w, Res.ok ⟨br.events, r.failTail⟩)
    | (w, Res.err) => (w, Res.err)
    | (w, Res.panic) => (w, Res.panic)
    | (w, Res.div) => (w, Res.div)
  | Res.err => (w, Res.err)
  | Res.panic => (w, Res.panic)
  | Res.div => (w, Res.div)

end Ribzip2
