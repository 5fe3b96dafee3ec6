import Verif.Model.Basic
/-
Model of lib/src/bitwise/bitwriter.rs and lib/src/bitwise/bitreader.rs, and of the
`std::io::Write` / `std::io::Read` objects they are built on.
-/
namespace Ribzip2

/-! ### Number / bit conversions -/

/-- lib/src/bitwise/bitwriter.rs:68-78 `convert_to_number` (most significant bit first), as an
unbounded number.  Every caller but `increment_symbol` passes at most 32 bits. -/
def convertToNumber (input : List Bit) : Nat :=
  input.foldl (fun ct digit => ct * 2 + (if digit then 1 else 0)) 0

/-- The loop `while input > 0 { push(input & 1); input >>= 1 }` of
lib/src/bitwise/bitwriter.rs:83-90, 110-117, 130-137.  `fuel` bounds the number of iterations
(callers pass `input` itself, which is never too small). -/
def lsbLoop : Nat → Nat → List Bit
  | 0, _ => []
  | fuel + 1, input => if input > 0 then (input % 2 == 1) :: lsbLoop fuel (input / 2) else []

/-- lib/src/bitwise/bitwriter.rs:80-98 `convert_to_code_pad_to_byte`
(`8 - counter` cannot underflow: a `u8` has at most 8 significant bits). -/
def convertToCodePadToByte (input : UInt8) : List Bit :=
  let output := lsbLoop input.toNat input.toNat
  (output ++ List.replicate (8 - output.length) false).reverse

/-- lib/src/bitwise/bitwriter.rs:100-105 `convert_to_code_pad_to_bytes`. -/
def convertToCodePadToBytes (input : List UInt8) : List Bit :=
  input.flatMap convertToCodePadToByte

/-- lib/src/bitwise/bitwriter.rs:107-125 `convert_to_code_pad_to_15_bits`: `15 - counter`
underflows for inputs of 16 significant bits. -/
def convertToCodePadTo15Bits (input : UInt16) : Res (List Bit) := do
  let output := lsbLoop input.toNat input.toNat
  let pad ← subU 15 output.length
  pure (output ++ List.replicate pad false).reverse

/-- lib/src/bitwise/bitwriter.rs:127-141 `convert_to_code_pad_to_n_bits`: numbers of more than
`n` bits are *not* truncated, the result is then longer than `n`. -/
def convertToCodePadToNBits (input n : Nat) : List Bit :=
  let output := lsbLoop input input
  (output ++ List.replicate (n - output.length) false).reverse

/-- lib/src/bitwise/bitwriter.rs:143-146 `increment_symbol`.  The `usize` arithmetic
(`ct *= 2`, `ct += 1`, `+ 1`) overflows, and panics, exactly when the incremented value does not fit
64 bits. -/
def incrementSymbol (input : List Bit) : Res (List Bit) :=
  if convertToNumber input + 1 < 2 ^ 64 then
    Res.ok (convertToCodePadToNBits (convertToNumber input + 1) input.length)
  else Res.panic

/-! ### `std::io::Write` -/

/-- What one call of `Write::write` does: accept at most `k` bytes of the buffer and return
`Ok(number accepted)`, or return an error. -/
inductive WEvent where
  | accept (k : Nat)
  | fail
  deriving Repr, DecidableEq

/-- A writer: the bytes received so far and the script of its future behaviour.  When the script
is exhausted every write is accepted completely. -/
structure Writer where
  out : List UInt8
  script : List WEvent
  deriving Repr, DecidableEq

/-- A writer that never fails and accepts everything (e.g. a `Vec<u8>`). -/
def Writer.empty : Writer := ⟨[], []⟩

/-- One call of `Write::write(buf)` (std contract): `Ok(n)` means that the first `n` bytes were
taken; the model returns the new writer and whether the call was `Ok`.  Both call sites in the
library (bitwriter.rs:49, 62 and block_decoder.rs:59) discard `n`. -/
def Writer.write (w : Writer) (buf : List UInt8) : Writer × Res Unit :=
  match w.script with
  | [] => (⟨w.out ++ buf, []⟩, Res.ok ())
  | WEvent.accept k :: s => (⟨w.out ++ buf.take k, s⟩, Res.ok ())
  | WEvent.fail :: s => (⟨w.out, s⟩, Res.err)

/-! ### `BitWriterImpl` -/

/-- lib/src/bitwise/bitwriter.rs:5-11 `struct BitWriterImpl`. -/
structure BitWriter where
  pending : List Bit
  w : Writer
  deriving Repr, DecidableEq

/-- lib/src/bitwise/bitwriter.rs:17-22 `from_writer`. -/
def BitWriter.fromWriter (w : Writer) : BitWriter := ⟨[], w⟩

/-- lib/src/bitwise/bitwriter.rs:46-51, the `chunks_exact(8)` loop on the pending bits; `bits` is
what remains to be cut into chunks.  On an error the pending bits keep their old value
(`pendingOld`), since line 51 is not reached. -/
def writeChunks (pendingOld : List Bit) (w : Writer) : List Bit → BitWriter × Res Unit
  | b0 :: b1 :: b2 :: b3 :: b4 :: b5 :: b6 :: b7 :: rest =>
    match w.write [UInt8.ofNat (convertToNumber [b0, b1, b2, b3, b4, b5, b6, b7])] with
    | (w', Res.ok _) => writeChunks pendingOld w' rest
    | (w', r) => (⟨pendingOld, w'⟩, r)
  | rest => (⟨rest, w⟩, Res.ok ())

/-- lib/src/bitwise/bitwriter.rs:44-53 `write_bits`. -/
def BitWriter.writeBits (bw : BitWriter) (bits : List Bit) : BitWriter × Res Unit :=
  writeChunks (bw.pending ++ bits) bw.w (bw.pending ++ bits)

/-- lib/src/bitwise/bitwriter.rs:55-65 `finalize` (`8 - len` cannot underflow: fewer than 8 bits
are pending between calls). -/
def BitWriter.finalize (bw : BitWriter) : BitWriter × Res Unit :=
  if bw.pending.isEmpty then (bw, Res.ok ())
  else
    let padded := bw.pending ++ List.replicate (8 - bw.pending.length) false
    match bw.w.write [UInt8.ofNat (convertToNumber padded)] with
    | (w', r) => (⟨padded, w'⟩, r)

/-! ### `std::io::Read` -/

/-- What one call of `Read::read` does: deliver (at most) these bytes (`data []` is `Ok(0)`, end of
file), or fail with `ErrorKind::Interrupted`, or fail with another error. -/
inductive REvent where
  | data (bs : List UInt8)
  | intr
  | fail
  deriving Repr, DecidableEq

/-- A reader: the script of its future behaviour.  A call asking for fewer bytes than a `data`
event offers leaves the rest for the next call.  When the script is exhausted every further call
returns `Ok(0)` (end of file), or, if `failTail`, an error. -/
structure Reader where
  events : List REvent
  failTail : Bool
  deriving Repr, DecidableEq

/-- A reader delivering exactly these bytes (e.g. a `Cursor`). -/
def Reader.ofBytes (bs : List UInt8) : Reader := ⟨[REvent.data bs], false⟩

/-- The bytes a one-byte-at-a-time consumer gets from a script before end of file or an error:
`read_exact` of a one-byte buffer (std contract: retries on `Interrupted`, `Ok(0)` is
`UnexpectedEof`), as used in bitreader.rs:52, 69. -/
def readByte : List REvent → Res (UInt8 × List REvent)
  | [] => Res.err
  | REvent.intr :: es => readByte es
  | REvent.fail :: _ => Res.err
  | REvent.data [] :: _ => Res.err
  | REvent.data [b] :: es => Res.ok (b, es)
  | REvent.data (b :: c :: bs) :: es => Res.ok (b, REvent.data (c :: bs) :: es)

/-! ### `BitReaderImpl` -/

/-- lib/src/bitwise/bitreader.rs:7-11 `struct BitReaderImpl` (the byte reader is represented by its
remaining script; a `failTail` makes no difference here because end of file is an error too). -/
structure BitReader where
  events : List REvent
  cursor : Nat
  current : Option UInt8
  deriving Repr, DecidableEq

/-- lib/src/bitwise/bitreader.rs:34-40 `from_reader`. -/
def BitReader.fromReader (r : Reader) : BitReader := ⟨r.events, 0, none⟩

/-- Make sure a current byte with unread bits is loaded: the refill branches of
lib/src/bitwise/bitreader.rs:49-55 and 68-72. -/
def BitReader.refill (br : BitReader) : Res (UInt8 × BitReader) :=
  match br.current with
  | some b =>
    if br.cursor ≥ 8 then do
      let (b', es) ← readByte br.events
      pure (b', ⟨es, 0, some b'⟩)
    else Res.ok (b, br)
  | none => do
    let (b', es) ← readByte br.events
    pure (b', ⟨es, 0, some b'⟩)

/-- lib/src/bitwise/bitreader.rs:44-76 `read_bits`, one bit per step.  (In Rust a refill is its own
loop iteration; here it is merged with the bit it precedes.) -/
def BitReader.readBits (br : BitReader) : Nat → Res (List Bit × BitReader)
  | 0 => Res.ok ([], br)
  | n + 1 => do
    let (b, br') ← br.refill
    let bit : Bit := (b.toNat / 2 ^ (8 - br'.cursor - 1)) % 2 != 0
    let (bits, br'') ← BitReader.readBits { br' with cursor := br'.cursor + 1 } n
    pure (bit :: bits, br'')

/-- lib/src/bitwise/bitreader.rs:15-21 `read_bytes` (`try_into().unwrap()` cannot fail: 8 bits). -/
def BitReader.readBytes (br : BitReader) : Nat → Res (List UInt8 × BitReader)
  | 0 => Res.ok ([], br)
  | n + 1 => do
    let (bits, br') ← br.readBits 8
    let (bytes, br'') ← BitReader.readBytes br' n
    pure (UInt8.ofNat (convertToNumber bits) :: bytes, br'')

/-- Number of bytes in a script: model artefact used only to compute loop fuel. -/
def eventsSize : List REvent → Nat
  | [] => 0
  | REvent.data bs :: es => bs.length + eventsSize es
  | _ :: es => eventsSize es

/-- Upper bound on the number of bits a bit reader can still deliver: model artefact, used only as
loop fuel. -/
def BitReader.fuel (br : BitReader) : Nat := 8 * eventsSize br.events + 8 + 1

end Ribzip2
