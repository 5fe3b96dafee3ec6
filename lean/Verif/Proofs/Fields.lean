import Verif.Proofs.RecoverRelease
/- Damage to the magic numbers and checksums of a stream. -/
namespace Ribzip2
open Spec

theorem takeBits_append' (n : Nat) (c bs : List Bit) (h : c.length = n) : takeBits n (c ++ bs) = Res.ok (c, bs) := by
  subst h
  simp [takeBits]

theorem pWhatNext_other (m rest : List Bit) (hm : m.length = 48) (h1 : m ≠ blockMagic) (h2 : m ≠ footerMagic) :
    pWhatNext (m ++ rest) = Res.err := by
  have hl : ∀ x y : List Bit, x.length = 48 → m ++ rest = x ++ y → m = x := by
    intro x y hx he
    have := congrArg (List.take 48) he
    rwa [List.take_left' hm, List.take_left' hx] at this
  rcases hw : pWhatNext (m ++ rest) with ⟨t, mid⟩ | _ | _ | _
  · rcases pWhatNext_inv hw with ⟨-, e⟩ | ⟨-, e⟩
    · exact absurd (hl _ _ (by decide) e) h1
    · exact absurd (hl _ _ (by decide) e) h2
  · rfl
  · exact absurd hw (pWhatNext_ne _).2
  · exact absurd hw (pWhatNext_ne _).1

theorem finishBlock_crc {crc crc' : BitVec 32} {p : Nat} {s : List UInt8} {z : List ZleSymbol} {d : List UInt8}
    (h : finishBlock crc p s z = Res.ok d) (hne : crc' ≠ Ribzip2.crc32 d) : finishBlock crc' p s z = Res.err := by
  simp only [finishBlock] at h ⊢
  rcases g1 : decodeZle z with y1 | _ | _ | _ <;> simp [g1] at h ⊢
  rcases g2 : inverseMtf y1 s with y2 | _ | _ | _ <;> simp [g2] at h ⊢
  rcases g3 : inverseBwt y2 p with y3 | _ | _ | _ <;> simp [g3] at h ⊢
  split at h
  · simp at h
    subst h
    exact fun h => hne h.symm
  · simp at h

theorem crcField_ne (c : List Bit) (hc : c.length = 32) (d : List UInt8) (hne : c ≠ natToBits 32 (Spec.crc32 d).toNat) :
    BitVec.ofNat 32 (convertToNumber c) ≠ Ribzip2.crc32 d := by
  intro h
  apply hne
  rw [← crc32_eq_spec, ← h, convertToNumber_eq, BitVec.toNat_ofNat]
  have := bitsToNat_lt c
  rw [hc] at this
  rw [Nat.mod_eq_of_lt this, ← hc, natToBits_bitsToNat]

theorem pBlock_wrong_crc (c0 c bs rest : List Bit) (d : List UInt8) (h0 : c0.length = 32) (hc : c.length = 32)
    (hne : c ≠ natToBits 32 (Spec.crc32 d).toNat) (h : pBlock (c0 ++ bs) = Res.ok (d, rest)) :
    pBlock (c ++ bs) = Res.err := by
  simp only [pBlock, takeBits_append' 32 _ _ h0, takeBits_append' 32 _ _ hc, Res.unwrap_ok, Res.ok_bind] at h ⊢
  rcases h2 : takeBits 1 bs with ⟨x2, b2⟩ | _ | _ | _ <;> simp [h2] at h ⊢
  rcases h3 : takeBits 24 b2 with ⟨x3, b3⟩ | _ | _ | _ <;> simp [h3] at h ⊢
  rcases h4 : pSymbolTable b3 with ⟨x4, b4⟩ | _ | _ | _ <;> simp [h4] at h ⊢
  rcases h5 : takeBits 3 b4 with ⟨x5, b5⟩ | _ | _ | _ <;> simp [h5] at h ⊢
  rcases h6 : takeBits 15 b5 with ⟨x6, b6⟩ | _ | _ | _ <;> simp [h6] at h ⊢
  rcases h7 : pUnary (convertToNumber x6) b6 with ⟨x7, b7⟩ | _ | _ | _ <;> simp [h7] at h ⊢
  rcases h8 : inverseMtf x7 ((List.range (convertToNumber x5)).map UInt8.ofNat) with x8 | _ | _ | _ <;>
    simp [h8] at h ⊢
  rcases h9 : pTrees (x4.length + 2) (convertToNumber x5) b7 with ⟨x9, b9⟩ | _ | _ | _ <;>
    simp [h9] at h ⊢
  rcases h10 : buildTables x9 with x10 | _ | _ | _ <;> simp [h10] at h ⊢
  rcases h11 : pGroups x10 x8 b9 with ⟨x11, b11⟩ | _ | _ | _ <;> simp [h11] at h ⊢
  rcases h12 : finishBlock (BitVec.ofNat 32 (convertToNumber c0)) (convertToNumber x3) x4 x11
    with x12 | _ | _ | _ <;> simp [h12] at h
  obtain ⟨rfl, rfl⟩ := h
  rw [finishBlock_crc h12 (crcField_ne c hc _ hne)]
  rfl

namespace Release

theorem pBlock_wrong_crc (c0 c bs rest : List Bit) (d : List UInt8) (h0 : c0.length = 32) (hc : c.length = 32)
    (hne : c ≠ natToBits 32 (Spec.crc32 d).toNat) (h : pBlock (c0 ++ bs) = Res.ok (d, rest)) :
    pBlock (c ++ bs) = Res.err := by
  simp only [pBlock, takeBits_append' 32 _ _ h0, takeBits_append' 32 _ _ hc, Res.unwrap_ok, Res.ok_bind] at h ⊢
  rcases h2 : takeBits 1 bs with ⟨x2, b2⟩ | _ | _ | _ <;> simp [h2] at h ⊢
  rcases h3 : takeBits 24 b2 with ⟨x3, b3⟩ | _ | _ | _ <;> simp [h3] at h ⊢
  rcases h4 : pSymbolTable b3 with ⟨x4, b4⟩ | _ | _ | _ <;> simp [h4] at h ⊢
  rcases h5 : takeBits 3 b4 with ⟨x5, b5⟩ | _ | _ | _ <;> simp [h5] at h ⊢
  rcases h6 : takeBits 15 b5 with ⟨x6, b6⟩ | _ | _ | _ <;> simp [h6] at h ⊢
  rcases h7 : pUnary (convertToNumber x6) b6 with ⟨x7, b7⟩ | _ | _ | _ <;> simp [h7] at h ⊢
  rcases h8 : inverseMtf x7 ((List.range (convertToNumber x5)).map UInt8.ofNat) with x8 | _ | _ | _ <;>
    simp [h8] at h ⊢
  rcases h9 : pTrees (x4.length + 2) (convertToNumber x5) b7 with ⟨x9, b9⟩ | _ | _ | _ <;>
    simp [h9] at h ⊢
  rcases h10 : buildTables x9 with x10 | _ | _ | _ <;> simp [h10] at h ⊢
  rcases h11 : pGroups x10 x8 b9 with ⟨x11, b11⟩ | _ | _ | _ <;> simp [h11] at h ⊢
  rcases h12 : finishBlock (BitVec.ofNat 32 (convertToNumber c0)) (convertToNumber x3) x4 x11
    with x12 | _ | _ | _ <;> simp [h12] at h
  obtain ⟨rfl, rfl⟩ := h
  rw [finishBlock_crc h12 (crcField_ne c hc _ hne)]
  rfl

end Release
end Ribzip2
