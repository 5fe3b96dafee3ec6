import Verif.Model.Release
/- What the library prints: `decode_stream` once more with the lines given to `println!`. (`encode_stream` and the
functions it calls print nothing; the message of a panic goes to standard error and is not modelled.) -/
namespace Ribzip2

/-- lib/src/stream/mod.rs:182-191 `read_file_header`, with the line it prints (187). -/
def readFileHeaderM (br : BitReader) : Res BitReader × List String :=
  match br.readBytes 4 with
  | Res.ok (res, br) =>
    match res with
    | [0x42, 0x5a, 0x68, _] => (Res.ok br, [])
    | _ => (Res.err, ["Not a valid bz2 file"])
  | Res.err => (Res.err, [])
  | Res.panic => (Res.panic, [])
  | Res.div => (Res.div, [])

/-- lib/src/stream/mod.rs:199-209 `what_next`, with the line it prints (205). -/
def whatNextM (br : BitReader) : Res (BlockType × BitReader) × List String :=
  match br.readBytes 6 with
  | Res.ok (res, br) =>
    if res = [0x31, 0x41, 0x59, 0x26, 0x53, 0x59] then (Res.ok (BlockType.blockHeader, br), [])
    else if res = [0x17, 0x72, 0x45, 0x38, 0x50, 0x90] then (Res.ok (BlockType.streamFooter, br), [])
    else (Res.err, ["Expected block start or stream end"])
  | Res.err => (Res.err, [])
  | Res.panic => (Res.panic, [])
  | Res.div => (Res.div, [])

/-- The loop of lib/src/stream/mod.rs:215-222, with the lines printed. `block` is `decode_block`, of a debug or of a
release build; it prints nothing. -/
def decodeLoopM (block : BitReader → Writer → Writer × Res BitReader) :
    Nat → BitReader → Writer → Writer × Res Unit × List String
  | 0, _, w => (w, Res.div, [])
  | fuel + 1, br, w =>
    match whatNextM br with
    | (Res.ok (BlockType.streamFooter, _), lines) => (w, Res.ok (), lines)
    | (Res.ok (BlockType.blockHeader, br), lines) =>
      match block br w with
      | (w, Res.ok br) =>
        match decodeLoopM block fuel br w with
        | (w, r, more) => (w, r, lines ++ more)
      | (w, Res.err) => (w, Res.err, lines)
      | (w, Res.panic) => (w, Res.panic, lines)
      | (w, Res.div) => (w, Res.div, lines)
    | (Res.err, lines) => (w, Res.err, lines)
    | (Res.panic, lines) => (w, Res.panic, lines)
    | (Res.div, lines) => (w, Res.div, lines)

/-- lib/src/stream/mod.rs:212-224 `decode_stream`, with the lines printed. -/
def decodeStreamM (block : BitReader → Writer → Writer × Res BitReader) (r : Reader) (w : Writer) :
    Writer × Res Unit × List String :=
  match readFileHeaderM (BitReader.fromReader r) with
  | (Res.ok br, lines) =>
    match decodeLoopM block br.fuel br w with
    | (w, r, more) => (w, r, lines ++ more)
  | (Res.err, lines) => (w, Res.err, lines)
  | (Res.panic, lines) => (w, Res.panic, lines)
  | (Res.div, lines) => (w, Res.div, lines)

end Ribzip2
