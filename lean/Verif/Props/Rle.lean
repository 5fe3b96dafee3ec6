import Verif.Proofs.InvRleExact
/- Property theorems C09, C10. -/
namespace Ribzip2
open Spec

/-- The run-length stage of the encoder: `rle` over the refills of a block, carrying the pending run
from one to the next (lib/src/stream/mod.rs:150-156), then `rle_augment` (line 164). -/
def rleStage (refills : List (List UInt8)) : List UInt8 :=
  rleAugment (rleChunks refills).data (rleChunks refills).counter (rleChunks refills).lastByte

theorem rleStage_eq (refills : List (List UInt8)) : rleStage refills = rle1Encode refills.flatten := by
  rw [rleStage, rleChunks_eq, rle_eq]

/-- **C10** (what is produced). However the input is cut into refills, the run-length stage produces
the standard RLE1 encoding of the whole input. -/
theorem C10_rle_is_standard (refills : List (List UInt8)) :
    rleStage refills = rle1Encode refills.flatten := rleStage_eq refills

/-- **C10** (independence of refills). -/
theorem C10_rle_independent_of_refills (r₁ r₂ : List (List UInt8)) (h : r₁.flatten = r₂.flatten) :
    rleStage r₁ = rleStage r₂ := by rw [rleStage_eq, rleStage_eq, h]

/-- **C10** (inversion). The standard RLE1 decoder maps the output of the run-length stage back to
the input. -/
theorem C10_standard_decoder_inverts (refills : List (List UInt8)) :
    rle1Decode (rleStage refills) = refills.flatten := by rw [rleStage_eq, rle1Decode_encode]

/-- **C10** (size). `rle_total_size`, which decides when a block is full, is the exact length of the
run-length encoded block. -/
theorem C10_total_size_exact (refills : List (List UInt8)) :
    rleTotalSize (rleChunks refills).data.length (rleChunks refills).counter
      (rleChunks refills).lastByte = (rleStage refills).length := rleTotalSize_eq _ _ _

/-- Concrete case: a run of seven cut in the middle. -/
example : rleStage [[1, 5, 5, 5], [5, 5, 5], [5, 2]] = [1, 5, 5, 5, 5, 3, 2] := by decide +kernel
example : rle1Decode [1, 5, 5, 5, 5, 3, 2] = [1, 5, 5, 5, 5, 5, 5, 5, 2] := by decide +kernel

/-- **C09 is false**: `inverse_rle` takes the repeat count for a data byte when the data goes on with
bytes equal to the count. -/
theorem C09_refuted : ∃ d : List UInt8, inverseRle (rleStage [d]) ≠ d :=
  ⟨[1, 1, 1, 1, 0, 0, 0, 5], by decide +kernel⟩

/-- **C09**, the part that holds: `inverse_rle` undoes the run-length stage on every input in which
no run of four or more bytes is directly followed by a run of three or more bytes equal to its
repeat count, up to two harmless cases (see `Spec.noCountCollision`).  Missing: those inputs, for which it is false
(`C09_refuted`). -/
theorem C09_inverse_rle_partial (refills : List (List UInt8))
    (h : noCountCollision (runs refills.flatten) = true) :
    inverseRle (rleStage refills) = refills.flatten := by
  rw [rleStage_eq, inverseRle_encode _ h]

/-- The hypothesis of `C09_inverse_rle_partial` is met by data with long runs. -/
example : noCountCollision (runs [7, 7, 7, 7, 7, 7, 0, 0, 0, 0, 1, 9]) = true := by decide +kernel
example : inverseRle (rleStage [[7, 7, 7, 7, 7, 7, 0, 0, 0, 0, 1, 9]])
    = [7, 7, 7, 7, 7, 7, 0, 0, 0, 0, 1, 9] := by decide +kernel

/-- **C09**, the exact extent: for every input without 255 bytes 251 in a row, `inverse_rle` undoes the
run-length stage *if and only if* the input has no count collision.  (Missing from an unconditional "iff": the
inputs with 255 bytes 251 in a row; for them the "if" is `C09_inverse_rle_partial`.) -/
theorem C09_comes_back_iff_partial (refills : List (List UInt8))
    (h : ¬ List.replicate 255 251 <:+: refills.flatten) :
    inverseRle (rleStage refills) = refills.flatten ↔ noCountCollision (runs refills.flatten) = true := by
  rw [rleStage_eq, inverseRle_encode_iff _ h]

/-- Both cases occur: a harmful collision, and one that is harmless because the runs are equally long. -/
example : noCountCollision (runs [1, 1, 1, 1, 1, 1, 2, 2, 2, 2, 7]) = false ∧
    noCountCollision (runs [1, 1, 1, 1, 1, 1, 2, 2, 2, 2, 2, 2, 7]) = true ∧
    inverseRle (rleStage [[1, 1, 1, 1, 1, 1, 2, 2, 2, 2, 7]]) ≠ [1, 1, 1, 1, 1, 1, 2, 2, 2, 2, 7] ∧
    inverseRle (rleStage [[1, 1, 1, 1, 1, 1, 2, 2, 2, 2, 2, 2, 7]]) = [1, 1, 1, 1, 1, 1, 2, 2, 2, 2, 2, 2, 7] := by
  decide +kernel
/-- Its hypothesis is met by every string without the byte 251. -/
example (d : List UInt8) (h : 251 ∉ d) : ¬ List.replicate 255 251 <:+: d := by
  rintro ⟨p, q, rfl⟩
  exact h (List.mem_append_left _ (List.mem_append_right _ (List.mem_replicate.2 ⟨by omega, rfl⟩)))

/-- In particular it is undone for every input without a run of four equal bytes. -/
theorem C09_inverse_rle_no_runs_partial (d : List UInt8) (h : ∀ r ∈ runs d, r.2 < 4) :
    inverseRle (rleStage [d]) = d := by
  have : noCountCollision (runs d) = true := by
    revert h
    generalize runs d = rs
    intro h
    induction rs with
    | nil => rfl
    | cons r rs ih =>
      cases rs with
      | nil => rfl
      | cons r' rs =>
        obtain ⟨b, n⟩ := r
        obtain ⟨c, m⟩ := r'
        have hn := h (b, n) (by simp)
        simp only at hn
        rw [noCountCollision, ih (fun r hr => h r (by simp [hr]))]
        simp; omega
  have := C09_inverse_rle_partial [d] (by simpa using this)
  simpa using this

/-- Its hypothesis is met by text with doubled and tripled bytes. -/
example : ∀ r ∈ runs [7, 7, 7, 0, 0, 1, 9, 9, 9], r.2 < 4 := by decide +kernel

end Ribzip2
