import Verif.Props.Format
import Verif.Props.Bwt
import Verif.Proofs.Unique
import Verif.Proofs.RleMinimal
/- Property C35: exactly which inputs give a valid stream. -/
namespace Ribzip2
open Spec

/-- **C35**, partial, the exact extent for inputs of one block: take any input of up to 720000 bytes without
256 equal bytes in a row that does not end in four equal bytes (for those the run-length encoding the format
allows is unique). What `encode_stream` writes is a valid stream for it exactly if the block is safe for the
transform. Missing: larger inputs and those with such runs, for which only one direction is proved
(`C35_output_valid_partial`). -/
theorem C35_valid_iff_safe_partial (dist : Distance) (d : List UInt8) (t : Nat) (ht : 1 ≤ t) (hne : d ≠ [])
    (hlen : d.length ≤ 720000) (hrun : ∀ b, ¬ List.replicate 256 b <:+: d)
    (hend : ∀ b, ¬ List.replicate 4 b <:+ d) (bytes : List UInt8)
    (he : encodeBytes dist d t Strategy.single = Res.ok bytes) :
    ValidStream d bytes ↔ TransformSafe (rle1Encode d) := by
  constructor
  · intro hv
    obtain ⟨blocks, bytes', e1, e2, e3, k, hk, e4, -⟩ := encodeBytes_single dist d t ht
    rw [he, Res.ok.injEq] at e1
    subst e1
    rw [blocksOf_small d hne hlen] at e2
    obtain ⟨b, hb1, hb2⟩ := List.map_eq_singleton_iff.1 e2
    subst hb1
    obtain ⟨p, p1, p2⟩ := e3 b (by simp)
    rw [hb2] at p1
    obtain ⟨lv, vblocks, ⟨-, -, j, -, v1, -⟩, v2, v3⟩ := hv
    rw [e4] at v1
    simp only [List.append_assoc] at v1
    have h2 := (List.append_inj v1 (by simp [streamHeader])).2
    match vblocks with
    | [] => exact absurd v2.symm hne
    | vb :: vrest =>
      obtain ⟨q, q1, q2⟩ := v3 vb (by simp)
      simp only [blockFrames, List.flatMap_cons, List.flatMap_nil, blockFrame, List.append_assoc, List.nil_append] at h2
      have h3 := List.append_cancel_left h2
      have h4 := (List.append_inj h3 (by simp)).2
      rw [p2, q2] at h4
      obtain ⟨hptr, hused, hsyms, htail⟩ := parts_peel p1.readable.sound (valid_sound q1) h4
      -- nothing but the footer follows
      have hnil : vrest = [] := by
        match vrest with
        | [] => rfl
        | y :: ys =>
          simp only [List.flatMap_cons, List.append_assoc] at htail
          exact absurd htail.symm magic_ne
      subst hnil
      have hcont : vb.1 = d := by simpa [contents] using v2
      have hlast : q.last = p.last := by
        have m1 := p1.mtf
        have m2 := q1.mtf
        rw [hused, hsyms, m2] at m1
        simpa using m1
      have htr := q1.transform
      rw [hlast, ← hptr] at htr
      obtain ⟨last, ptr, b1, b2, -⟩ := C30_bwt_never_fails p.rle p1.ne
      rw [p1.transform, Res.ok.injEq, Prod.mk.injEq] at b1
      have hq := q1.content
      rw [hcont] at hq
      have hl : q.rle.length = (rle1Encode d).length := by
        rw [← (isBwt_length htr).1, b1.1, b2.length_eq, p1.rle]
      have hmin := rle_minimal q.rle (by rw [hq]; exact hrun) (by rw [hq]; exact hend)
      rw [hq] at hmin
      have hrle : q.rle = p.rle := by rw [p1.rle]; exact hmin.2 hl
      rw [hrle] at htr
      have := (C30_bwt_iff_safe_partial p.rle p1.ne).1 ⟨_, _, p1.transform, htr⟩
      rw [p1.rle] at this
      exact this
  · intro hs
    obtain ⟨bytes', e1, e2⟩ := C35_output_valid_small_partial dist d t ht hlen hs
    rw [he, Res.ok.injEq] at e1
    rw [e1]; exact e2

/-- The hypotheses are met: "banana", delivered to two threads. -/
example : ([98, 97, 110, 97, 110, 97] : List UInt8) ≠ [] ∧ ([98, 97, 110, 97, 110, 97] : List UInt8).length ≤ 720000 ∧
    (∀ b, ¬ List.replicate 256 b <:+: ([98, 97, 110, 97, 110, 97] : List UInt8)) ∧
    (∀ b, ¬ List.replicate 4 b <:+ ([98, 97, 110, 97, 110, 97] : List UInt8)) ∧
    (encodeBytes (fun _ _ => 0) [98, 97, 110, 97, 110, 97] 2 Strategy.single).isOk = true := by
  refine ⟨by simp, by simp, ?_, ?_, by decide +kernel⟩
  · intro b h
    have := h.length_le
    rw [List.length_replicate] at this
    exact absurd this (by decide)
  · intro b h
    rw [List.suffix_iff_eq_drop] at h
    simp [List.replicate_succ] at h
    exact absurd (h.1.symm.trans h.2.1) (by decide)

end Ribzip2
