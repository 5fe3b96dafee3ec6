import Verif.Props.BlockWise
import Verif.Props.Format
/- Property C29: which numbers of tables are rejected, and what the accepted ones lead to. -/
namespace Ribzip2
open Spec

/-- **C29 is false**, for every input: the encoder rejects a number of tables only if it is 0 (by a panic, if there is
anything to compress); every other number, however large, is accepted. -/
theorem C29_rejected_iff_zero (dist : Distance) (nc it : Nat) (d : List UInt8) (hd : d ≠ []) (t : Nat) (ht : 1 ≤ t) :
    (encodeBytes dist d t (Strategy.blockWise nc it) = Res.panic ↔ nc = 0) ∧
    (nc ≠ 0 → ∃ bytes, encodeBytes dist d t (Strategy.blockWise nc it) = Res.ok bytes) := by
  refine ⟨⟨fun h => ?_, ?_⟩, fun h => C49_kmeans_always_succeeds dist nc it (by omega) d t ht⟩
  · by_contra hn
    obtain ⟨bytes, hb⟩ := C49_kmeans_always_succeeds dist nc it (by omega) d t ht
    rw [hb] at h
    simp at h
  · rintro rfl
    exact C29_zero_tables_partial dist it d hd t ht

/-- The start of a block with `nc` tables. -/
theorem generateBlock_start (dist : Distance) (strategy : Strategy) (nc : Nat) (h7 : nc < 8)
    (hw : Workable dist strategy nc) (crc : BitVec 32) (rle : List UInt8) (hne : rle ≠ [])
    (hlen : rle.length + 1 < 2 ^ 20) :
    ∃ (ptr : Nat) (used : List UInt8) (n : Nat) (tail : List Bit),
      generateBlockData dist strategy crc rle = Res.ok (blockMagic ++ (natToBits 32 crc.toNat ++
        ([false] ++ (natToBits 24 ptr ++ (symbolMapBits used ++ (natToBits 3 nc ++ (natToBits 15 n ++ tail))))))) ∧
      used.Pairwise (· < ·) := by
  obtain ⟨last, ptr, b1, b2, b3⟩ := C30_bwt_never_fails rle hne
  obtain ⟨enc, m1, m2, m3, m4⟩ := mtf_spec last
  have hlast : last.length = rle.length := b2.length_eq
  have hlne : last ≠ [] := by intro h; rw [h] at hlast; exact hne (List.length_eq_zero_iff.1 hlast.symm)
  have hun : 1 ≤ (usedBytes last).length := by
    obtain ⟨x, hx⟩ := List.exists_mem_of_ne_nil last hlne
    exact List.length_pos_of_mem (mem_usedBytes.2 hx)
  obtain ⟨rep, f1, f2⟩ := hw (usedBytes last).length enc hun m4 (by omega)
  obtain ⟨tables, sel, t1, t2, t3⟩ := emitBlock_ok crc ptr (usedBytes last) (zleEncode 0 enc) rep hun
    (usedBytes_length last) f2.dims (by rw [f2.count]; exact f2.sel) f2.enough f2.fit
    (zleEncode_symOk _ hun enc m4)
  have h : generateBlockData dist strategy crc rle
      = emitBlock crc ptr (usedBytes last) (zleEncode 0 enc) rep := by
    simp only [generateBlockData, b1, Res.ok_bind, m1, f1]
  rw [h, t3, f2.count, convertToCodePadToNBits_eq nc 3 (by omega)]
  refine ⟨ptr, usedBytes last, rep.selectors.length, (sel.map UInt8.toNat).flatMap unary
    ++ ((tables.map fun ls => encodeCodeTable (canonTable ls)).flatten
    ++ payloadBits tables (rep.selectors.map UInt8.toNat) 0 ((zleEncode 0 enc).map symbolIndex
      ++ [(usedBytes last).length + 1])), ?_, usedBytes_pairwise last⟩
  simp only [List.append_assoc]

/-- **C29 is false**, for every input: with 1 or with 7 tables the encoder ends normally, and what it writes is not a
valid bzip2 stream for any content (a block has 2 to 6 tables). -/
theorem C29_refuted_one_and_seven (dist : Distance) (nc it : Nat) (hnc : nc = 1 ∨ nc = 7) (d : List UInt8) (hd : d ≠ [])
    (t : Nat) (ht : 1 ≤ t) :
    ∃ bytes, encodeBytes dist d t (Strategy.blockWise nc it) = Res.ok bytes ∧ ∀ data, ¬ ValidStream data bytes := by
  have hw := blockWise_workable dist nc it (by omega)
  obtain ⟨w, hww⟩ := encodeBlocks_good_ok dist (Strategy.blockWise nc it) (blocksOf d) (by
    intro b hb
    have := blocksOf_size d b hb
    exact generateBlock_ok dist _ nc hw _ _ (rle1Encode_ne_nil b (blocksOf_ne_nil d b hb)) (by omega))
  obtain ⟨outs, o1, o2⟩ := encodeBlocks_good dist _ _ w hww
  obtain ⟨blocks, b1, b2, b3, b4⟩ := streamBits_frames dist _ _ outs o1
  rw [streamBits, footer_eq, fileHeader_eq, ← b2, ← b3, ← List.append_assoc] at o2
  refine ⟨w.out, encodeBytes_ofBytes dist d t ht _ w hww, fun data hv => ?_⟩
  obtain ⟨b, bs, rfl⟩ : ∃ b bs, blocks = b :: bs := by
    cases blocks with
    | nil =>
      rw [blocksOf_cons d hd] at b1
      simp at b1
    | cons b bs => exact ⟨b, bs, rfl⟩
  have hmem : b.1 ∈ blocksOf d := by rw [← b1]; simp
  have hsz := blocksOf_size d b.1 hmem
  obtain ⟨ptr, used, n, tail, g1, g2⟩ := generateBlock_start dist _ nc (by omega) hw (crc32 b.1) (rle1Encode b.1)
    (rle1Encode_ne_nil _ (blocksOf_ne_nil d _ hmem)) (by omega)
  have hb4 := b4 b (by simp)
  rw [g1] at hb4
  simp only [Res.ok.injEq] at hb4
  obtain ⟨k, hk, hbits, -⟩ := o2
  obtain ⟨limit, e, p, tail', p1, p2⟩ := stream_first_block hv 57
    (natToBits 32 (crc32 b.1).toNat ++ ([false] ++ (natToBits 24 ptr ++ (symbolMapBits used ++ (natToBits 3 nc ++
      (natToBits 15 n ++ (tail ++ (blockFrames bs ++ (footerMagic ++ (natToBits 32 (streamCrc (b :: bs)).toNat ++
        List.replicate k false)))))))))) (by
    rw [hbits]
    have : blockFrames (b :: bs) = blockFrame b.1 b.2 ++ blockFrames bs := by simp [blockFrames]
    rw [this, ← hb4]
    simp only [List.append_assoc])
  have c := pCounts_body p1 (Spec.crc32 e) tail'
  rw [← p2] at c
  have hc : ∀ rest, pCounts (natToBits 32 (crc32 b.1).toNat ++ ([false] ++ (natToBits 24 ptr ++ (symbolMapBits used ++
      (natToBits 3 nc ++ (natToBits 15 n ++ rest)))))) = Res.ok (nc, n % 2 ^ 15) := by
    intro rest
    simp only [pCounts]
    rw [takeBits_append (natToBits_length 32 _)]
    simp only [Res.ok_bind]
    rw [takeBits_append (n := 1) rfl]
    simp only [Res.ok_bind]
    rw [takeBits_append (natToBits_length 24 _)]
    simp only [Res.ok_bind]
    rw [pSymbolTable_map]
    simp only [Res.ok_bind]
    rw [takeBits_append (natToBits_length 3 _)]
    simp only [Res.ok_bind]
    rw [takeBits_append (natToBits_length 15 _)]
    simp only [Res.ok_bind]
    rw [number_bits 3 nc (by omega), convertToNumber_eq, bitsToNat_natToBits]
    rfl
  rw [hc] at c
  simp only [Res.ok.injEq, Prod.mk.injEq] at c
  have := p1.numTables
  omega

/-- An instance: seven tables, accepted and invalid. -/
example : ∃ bytes, encodeBytes euclid [1, 0] 4 (Strategy.blockWise 7 3) = Res.ok bytes ∧ ∀ data, ¬ ValidStream data bytes :=
  C29_refuted_one_and_seven euclid 7 3 (Or.inr rfl) [1, 0] (by simp) 4 (by omega)

end Ribzip2
