import Batteries.Data.List.Basic
import Verif.Spec.Format
/- Code lengths that are optimal but for the treatment of equal frequencies. -/
namespace Ribzip2.Spec

/-- The code lengths `lens` (one for each symbol) are, for these frequencies, as good as any other of at most 17
bits, if the frequencies the other is judged by are increased by `0, 1, 2, …`, in some order. -/
def NearOptimal (freqs lens : List Nat) : Prop :=
  lens.length = freqs.length ∧ ∃ extra : List Nat, extra.Perm (List.range freqs.length) ∧
    ∀ other : List Nat, other.length = freqs.length → KraftLe 17 other →
      weightedLength freqs lens ≤ weightedLength (List.zipWith (· + ·) freqs extra) other

/-- A block with two equal code tables, the first used for every group, nearly optimal for the symbols that occur in
the block (the statistics count one more RUNA, in place of the end of the block). -/
structure BlockParts.OneTable (p : BlockParts) (block : List UInt8) : Prop where
  rle : p.rle = rle1Encode block
  used : p.used.Pairwise (· < ·)
  occurs : ∀ b ∈ p.used, b ∈ p.rle
  symbols : ∀ s ∈ p.syms, s < p.eob
  few : p.syms.length ≤ p.rle.length
  sel : p.sel = List.replicate ((p.syms.length + 50) / 50) 0
  selBits : p.selBits = List.replicate ((p.syms.length + 50) / 50) false
  transmitted : List.Forall₂ (LengthTable 1 20) p.tables p.tableBits
  tables : ∃ ls, p.tables = [ls, ls] ∧ KraftEq 17 ls ∧
    NearOptimal (((List.range (p.used.length + 1)).map fun s => (p.syms ++ [0]).count s) ++ [0]) ls

/-- `file` is a compressed file with the content `data`, and `P` holds of each of its blocks: its content and its bits
after the checksum. -/
def EachBlock (P : List UInt8 → List Bool → Prop) (data : List UInt8) (file : List UInt8) : Prop :=
  ∃ blocks : List (List UInt8 × List Bool), contents blocks = data ∧ (∀ b ∈ blocks, P b.1 b.2) ∧
    PaddedTo8 (streamHeader 0x39 ++ blockFrames blocks ++ footerMagic
      ++ natToBits 32 (streamCrc blocks).toNat) (bytesBits file)

/-- The block is written with one nearly optimal code table. -/
def OneTableBody (block : List UInt8) (body : List Bool) : Prop :=
  ∃ p : BlockParts, p.OneTable block ∧ body = p.body

end Ribzip2.Spec
