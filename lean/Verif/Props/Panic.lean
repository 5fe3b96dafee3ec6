import Verif.Props.Format
import Verif.Props.Decode
/- Property C17: damage that cannot make `decode_stream` panic. -/
namespace Ribzip2
open Spec

theorem mtfDecode_used_ne {U : List UInt8} {l : List Nat} {out : List UInt8}
    (h : mtfDecode U l = some out) (hne : out ≠ []) : U ≠ [] := by
  rintro rfl
  cases l with
  | nil => simp [mtfDecode] at h; exact hne h
  | cons a l => simp [mtfDecode] at h

theorem wellFormed_readable {p : BlockParts} (h : p.WellFormed) : Readable p where
  ptr := h.ptr
  used := h.used
  usedNe := mtfDecode_used_ne h.mtf (by intro e; have := h.inBlock; rw [e] at this; simp at this)
  symbols := h.symbols
  numTables := h.numTables
  lengths := h.lengths
  transmitted := h.transmitted
  numSelectors := h.numSelectors
  selected := h.selected
  enough := h.enough
  exact := h.noSurplus

/-- A well-formed block, whatever its stored checksum, is decoded or refused. -/
theorem pBlock_wellFormed (p : BlockParts) (h : p.WellFormed) (crc : BitVec 32) (rest : List Bit) :
    pBlock (natToBits 32 crc.toNat ++ p.body ++ rest) = Res.err ∨
      ∃ d, Ribzip2.crc32 d = crc ∧ pBlock (natToBits 32 crc.toNat ++ p.body ++ rest) = Res.ok (d, rest) := by
  have hr := wellFormed_readable h
  obtain ⟨s, s1, -⟩ := inverseBwt_total p.last p.ptr h.inBlock
  rw [pBlock_body p hr, finishBlock_stages p hr.used hr.symbols h.mtf h.size, s1]
  simp only [Res.ok_bind]
  by_cases hc : Ribzip2.crc32 (inverseRle s) = crc
  · right; exact ⟨inverseRle s, hc, by rw [if_pos hc]; rfl⟩
  · left; rw [if_neg hc]; rfl

/-- A block with any checksum, as it appears in the stream. -/
def frameWith (b : BitVec 32 × BlockParts) : List Bool := blockMagic ++ natToBits 32 b.1.toNat ++ b.2.body

/-- **C17**, partial: if every block body is well-formed (`BlockParts.WellFormed`: it can be taken apart
and its positions exist), then whatever the level byte, the checksums, the data encoded in the blocks and
everything from the end of the last block on may be — footer missing, cut, damaged, followed by anything —
`decode_stream` returns Ok or Err. Missing: bodies that are not well-formed, for which it is false
(`C17_refuted`). -/
theorem C17_wellformed_bodies_never_panic_partial (level : UInt8) (blocks : List (BitVec 32 × BlockParts))
    (h : ∀ b ∈ blocks, b.2.WellFormed) (tail : List Bool) (ht : ¬ blockMagic <+: tail) (r : Reader)
    (hr : inputBits r = streamHeader level ++ blocks.flatMap frameWith ++ tail) (w : Writer) :
    (decodeStream r w).2 = Res.ok () ∨ (decodeStream r w).2 = Res.err := by
  have key : ∀ (blocks : List (BitVec 32 × BlockParts)), (∀ b ∈ blocks, b.2.WellFormed) → ∀ fuel,
      (pBlocks fuel (blocks.flatMap frameWith ++ tail)).2 ≠ Res.panic := by
    intro blocks
    induction blocks with
    | nil =>
      intro _ fuel
      cases fuel with
      | zero => simp [pBlocks]
      | succ fuel =>
        simp only [List.flatMap_nil, List.nil_append, pBlocks]
        rcases hn : pWhatNext tail with ⟨t, mid⟩ | _ | _ | _
        · rcases pWhatNext_inv hn with ⟨rfl, e⟩ | ⟨rfl, e⟩
          · exact absurd ⟨mid, e.symm⟩ ht
          · simp
        · simp
        · exact absurd hn (pWhatNext_ne tail).2
        · simp
    | cons b blocks ih =>
      intro hb fuel
      cases fuel with
      | zero => simp [pBlocks]
      | succ fuel =>
        have ih := ih (fun x hx => hb x (by simp [hx])) fuel
        simp only [List.flatMap_cons, frameWith, List.append_assoc, pBlocks, pWhatNext_block]
        have hw := pBlock_wellFormed b.2 (hb b (by simp)) b.1 (blocks.flatMap frameWith ++ tail)
        simp only [List.append_assoc] at hw
        rcases hw with hw | ⟨d, -, hw⟩
        · rw [hw]; simp
        · rw [hw]; simpa using ih
  have hp : (pStream (bytesBits (delivered r.events))).2 ≠ Res.panic := by
    have hr' : bytesBits (delivered r.events) = streamHeader level ++ (blocks.flatMap frameWith ++ tail) := by
      rw [← List.append_assoc]; exact hr
    rw [hr', pStream, pHeader_append]
    exact key blocks h _
  have hd := pStream_ne_div (bytesBits (delivered r.events))
  rw [decodeStream_eq]
  generalize pStream (bytesBits (delivered r.events)) = y at *
  rcases writeAll w y.1 with ⟨w', (_ | _ | _ | _)⟩
  · rcases hy : y.2 with _ | _ | _ | _ <;> simp_all
  all_goals simp

/-- A well-formed block from a valid one. -/
theorem wellFormed_of_valid {p : BlockParts} {limit : Nat} {d : List UInt8} (h : p.Valid limit d)
    (hl : limit ≤ 900000) (hs : 50 * p.sel.length < p.syms.length + 51) : p.WellFormed where
  ptr := h.ptr
  inBlock := by
    obtain ⟨rows, h1, -, h3, h4⟩ := h.transform
    have : p.ptr < rows.length := (List.getElem?_eq_some_iff.1 h4).1
    rw [h3, List.length_map]; exact this
  used := h.used
  mtf := h.mtf
  size := by
    have := (isBwt_length h.transform).1
    have := h.size
    omega
  symbols := h.symbols
  numTables := by have := h.numTables; omega
  lengths := h.lengths
  transmitted := h.transmitted
  numSelectors := h.numSelectors
  selected := h.selected
  enough := h.enough
  noSurplus := hs

/-- The hypotheses are met by the block `ab` with the checksum 0 and no footer: it is refused. -/
example : (abParts [0]).WellFormed ∧ ¬ blockMagic <+: [false, false, false, false] ∧
    ∃ bytes : List UInt8, bytesBits bytes = streamHeader 0x39 ++ [((0 : BitVec 32), abParts [0])].flatMap frameWith
      ++ [false, false, false, false] ∧ decodeBytes bytes = Res.err := by
  refine ⟨wellFormed_of_valid (abParts_valid 1 (by omega) (by omega)) (by omega) (by decide), by decide, ?_⟩
  exact ⟨[66, 90, 104, 57, 49, 65, 89, 38, 83, 89, 0, 0, 0, 0, 0, 0, 0, 1, 0, 48, 0, 32, 0, 33, 0, 130, 176], by decide +kernel, by decide +kernel⟩

end Ribzip2
