import Verif.Model.Stream
/- lib/src/stream/mod.rs:212-224 once more, with a record of the calls of `write`: what was offered to the writer, and what
the reader had not yet been asked for at that time. -/
namespace Ribzip2

/-- A call of `write` in lib/src/block/block_decoder.rs:59. -/
structure WriteCall where
  /-- The bytes offered. -/
  data : List UInt8
  /-- What the reader has still to deliver. -/
  unread : List REvent

/-- The loop of lib/src/stream/mod.rs:215-222 with the `write` of lib/src/block/block_decoder.rs:59. `block` is
`decode_block` up to this line, of a debug or of a release build. -/
def decodeLoopCalls (block : BitReader → Res (List UInt8 × BitReader)) :
    Nat → BitReader → Writer → List WriteCall × Writer × Res Unit
  | 0, _, w => ([], w, Res.div)
  | fuel + 1, br, w =>
    match whatNext br with
    | Res.ok (BlockType.streamFooter, _) => ([], w, Res.ok ())
    | Res.ok (BlockType.blockHeader, br) =>
      match block br with
      | Res.ok (decoded, br) =>
        match w.write decoded with
        | (w, Res.ok _) =>
          match decodeLoopCalls block fuel br w with
          | (calls, result) => (⟨decoded, br.events⟩ :: calls, result)
        | (w, _) => ([⟨decoded, br.events⟩], w, Res.err)
      | Res.err => ([], w, Res.err)
      | Res.panic => ([], w, Res.panic)
      | Res.div => ([], w, Res.div)
    | Res.err => ([], w, Res.err)
    | Res.panic => ([], w, Res.panic)
    | Res.div => ([], w, Res.div)

/-- lib/src/stream/mod.rs:212-224 `decode_stream`, with the calls of `write`. -/
def decodeStreamCalls (block : BitReader → Res (List UInt8 × BitReader)) (r : Reader) (w : Writer) :
    List WriteCall × Writer × Res Unit :=
  match readFileHeader (BitReader.fromReader r) with
  | Res.ok br => decodeLoopCalls block br.fuel br w
  | Res.err => ([], w, Res.err)
  | Res.panic => ([], w, Res.panic)
  | Res.div => ([], w, Res.div)

end Ribzip2
