import Verif.Proofs.BlockEncode
import Verif.Proofs.InvRle
import Verif.Proofs.InvRleExact
/- From blocks to streams: what `encode_stream` writes with the single-table strategy, and what
`decode_stream` makes of it. -/
namespace Ribzip2
open Spec

/-! ### Sizes of blocks -/

theorem cut_size (d : List UInt8) (hd : d ≠ []) : (rle1Encode (d.take (cut d).1)).length ≤ 900005 := by
  obtain ⟨es', h1, -, -⟩ := nextBlock_steady [REvent.data d]
    (by intro e he; simp at he; exact Or.inr ⟨d, hd, he⟩)
  have hs : scriptBytes [REvent.data d] = d := by simp [scriptBytes]
  rw [hs, if_neg hd] at h1
  obtain ⟨w, es2, fin, g1, g2⟩ := nextBlock_total false [REvent.data d]
  rw [h1] at g1
  simp only [Res.ok.injEq, Prod.mk.injEq] at g1
  obtain ⟨b, -, k2, k3⟩ := g2 _ g1.1.symm
  have := congrArg Work.rleTotal k2
  simp only [workOf] at this
  rw [this]
  exact k3

theorem blocksOf_size (d : List UInt8) : ∀ b ∈ blocksOf d, (rle1Encode b).length ≤ 900005 := by
  induction d using blocks_induction with
  | h0 => simp [blocksOf_nil]
  | h1 d hd ih =>
    rw [blocksOf_cons d hd]
    intro b hb
    rcases List.mem_cons.1 hb with rfl | hb
    · exact cut_size d hd
    · exact ih b hb

theorem rle1Encode_length (d : List UInt8) : 4 * (rle1Encode d).length ≤ 5 * d.length := by
  have h1 := total_le_potential (rle d 0 none)
  rw [total_eq] at h1
  have h2 := potential_fold d ⟨[], 0, none⟩ (by simp)
  have h3 : potential (⟨[], 0, none⟩ : RleResult) = 0 := rfl
  have h4 : rle d 0 none = d.foldl rleStep ⟨[], 0, none⟩ := rfl
  rw [← h4] at h2
  omega

theorem rle1Encode_ne_nil (d : List UInt8) (h : d ≠ []) : rle1Encode d ≠ [] := by
  intro e
  have := rle_data_lt d h
  rw [e] at this
  simp at this

/-- Up to 720000 bytes make one block. -/
theorem blocksOf_small (d : List UInt8) (hd : d ≠ []) (h : d.length ≤ 720000) : blocksOf d = [d] := by
  have hc : (cut d).1 = d.length := by
    have hpos := List.length_pos_iff.2 hd
    have h0 : (rle1Encode (d.take 0)).length < 900000 := by simp [rle1Encode, runs]
    have h00 : (rleAt d 0).data.length = 0 := rfl
    rw [cut, show d.length + 2 = d.length + 1 + 1 from rfl, cutLoop, if_pos h0, if_neg (by omega), h00,
      show 0 + min ((900000 - 0) * 4 / 5) (d.length - 0) = d.length by omega, cutLoop]
    split
    · rw [if_pos (Nat.le_refl _)]
    · rfl
  rw [blocksOf_cons d hd, hc, List.take_length, List.drop_length, blocksOf_nil]

/-! ### Output of the encoder -/

/-- A block as the encoder writes it with `n` tables, when nothing goes wrong. -/
structure WrittenBlock (n : Nat) (b : List UInt8) (p : BlockParts) : Prop where
  rle : p.rle = rle1Encode b
  readable : Readable p
  numTables : p.tables.length = n
  transform : bwt p.rle = Res.ok (p.last, p.ptr)
  mtf : mtfDecode p.used (zleDecode 1 p.syms) = some p.last
  complete : ∀ ls ∈ p.tables, KraftEq 17 ls
  used : p.used = usedBytes p.rle
  short : p.syms.length ≤ p.rle.length
  size : p.rle.length ≤ 900005
  ne : p.rle ≠ []
  tableBits : p.tableBits = p.tables.map fun ls => encodeCodeTable (canonTable ls)

/-- The statistics of the block give a readable block: the selectors have no gap and there is no surplus
selector. -/
def GoodStats (dist : Distance) (strategy : Strategy) (rle : List UInt8) : Prop :=
  ∀ zle rep, blockStats dist strategy rle = Res.ok (zle, rep) →
    NoGap rep.selectors ∧ 50 * rep.selectors.length < zle.length + 51

theorem generate_parts (dist : Distance) (strategy : Strategy) (nc : Nat) (h7 : nc < 8)
    (hw : Workable dist strategy nc) (b : List UInt8) (hb : b ≠ []) (hs : (rle1Encode b).length ≤ 900005)
    (hgood : GoodStats dist strategy (rle1Encode b)) :
    ∃ p, WrittenBlock nc b p ∧
      generateBlockData dist strategy (crc32 b) (rle1Encode b) = Res.ok (blockFrame b p.body) := by
  have hne := rle1Encode_ne_nil b hb
  obtain ⟨p, h1, h2, h3, h4, h5, h6, h7, h8, h10, h9⟩ :=
    generateBlock_parts dist strategy nc h7 hw (crc32 b) (rle1Encode b) hne (by omega) hgood
  rw [crc32_eq_spec] at h9
  refine ⟨p, ⟨h1, h2, h3, by rw [h1]; exact h4, h5, h6, by rw [h1]; exact h7, by rw [h1]; exact h8,
    by rw [h1]; exact hs, by rw [h1]; exact hne, h10⟩, ?_⟩
  rw [crc32_eq_spec]
  exact h9

theorem generate_written (dist : Distance) (b : List UInt8) (hb : b ≠ []) (hs : (rle1Encode b).length ≤ 900005) :
    ∃ p, WrittenBlock 2 b p ∧
      generateBlockData dist Strategy.single (crc32 b) (rle1Encode b) = Res.ok (blockFrame b p.body) :=
  generate_parts dist Strategy.single 2 (by omega) (single_workable dist) b hb hs
    (single_good dist _ (rle1Encode_ne_nil b hb) (by omega))

theorem encodeBytes_ofBytes (dist : Distance) (d : List UInt8) (t : Nat) (ht : 1 ≤ t) (strategy : Strategy)
    (w : Writer) (h : encodeBlocks dist strategy (blocksOf d) Writer.empty = (w, Res.ok ())) :
    encodeBytes dist d t strategy = Res.ok w.out := by
  rw [encodeBytes, encodeStream_ofBytes _ _ _ _ _ ht, h]

/-- The single-table strategy does not use the distance function. -/
theorem encodeBytes_dist (dist dist' : Distance) (d : List UInt8) (t : Nat) :
    encodeBytes dist d t Strategy.single = encodeBytes dist' d t Strategy.single := by
  have : ∀ work : Work, generateBlockData dist Strategy.single work.crc work.rleTotal
      = generateBlockData dist' Strategy.single work.crc work.rleTotal := fun _ => rfl
  unfold encodeBytes encodeStream encodeStreamFuel
  simp only [this]

/-- The encoder never fails, and what it writes. -/
theorem encodeBytes_parts (dist : Distance) (strategy : Strategy) (nc : Nat) (d : List UInt8) (t : Nat) (ht : 1 ≤ t)
    (hgen : ∀ b ∈ blocksOf d, ∃ p, WrittenBlock nc b p ∧
      generateBlockData dist strategy (crc32 b) (rle1Encode b) = Res.ok (blockFrame b p.body)) :
    ∃ (blocks : List (List UInt8 × List Bool)) (bytes : List UInt8),
      encodeBytes dist d t strategy = Res.ok bytes ∧ blocks.map (fun b => b.1) = blocksOf d ∧
      (∀ b ∈ blocks, ∃ p, WrittenBlock nc b.1 p ∧ b.2 = p.body) ∧
      PaddedTo8 (streamHeader 0x39 ++ blockFrames blocks ++ footerMagic
        ++ natToBits 32 (streamCrc blocks).toNat) (bytesBits bytes) := by
  obtain ⟨w, hw⟩ := encodeBlocks_good_ok dist strategy (blocksOf d) (by
    intro b hb
    obtain ⟨p, -, h⟩ := hgen b hb
    exact ⟨_, h⟩)
  obtain ⟨outs, o1, o2⟩ := encodeBlocks_good dist strategy _ w hw
  obtain ⟨blocks, b1, b2, b3, b4⟩ := streamBits_frames dist strategy _ outs o1
  refine ⟨blocks, w.out, encodeBytes_ofBytes dist d t ht _ w hw, b1, ?_, ?_⟩
  · intro b hb
    have hmem : b.1 ∈ blocksOf d := by rw [← b1]; exact List.mem_map.2 ⟨b, hb, rfl⟩
    obtain ⟨p, h1, h2⟩ := hgen b.1 hmem
    refine ⟨p, h1, ?_⟩
    rw [b4 b hb] at h2
    simpa [blockFrame] using h2
  · rw [streamBits, footer_eq, fileHeader_eq, ← b2, ← b3, ← List.append_assoc] at o2
    exact o2

theorem encodeBytes_single (dist : Distance) (d : List UInt8) (t : Nat) (ht : 1 ≤ t) :
    ∃ (blocks : List (List UInt8 × List Bool)) (bytes : List UInt8),
      encodeBytes dist d t Strategy.single = Res.ok bytes ∧ blocks.map (fun b => b.1) = blocksOf d ∧
      (∀ b ∈ blocks, ∃ p, WrittenBlock 2 b.1 p ∧ b.2 = p.body) ∧
      PaddedTo8 (streamHeader 0x39 ++ blockFrames blocks ++ footerMagic
        ++ natToBits 32 (streamCrc blocks).toNat) (bytesBits bytes) :=
  encodeBytes_parts dist Strategy.single 2 d t ht fun b hb =>
    generate_written dist b (blocksOf_ne_nil d b hb) (blocksOf_size d b hb)

/-! ### Inverse transform of anything -/

theorem inverseBwtLoop_total (pairs : List (Nat × UInt8)) (h : ∀ p ∈ pairs, p.1 < pairs.length) (k start : Nat)
    (hs : start < pairs.length) : ∃ s, inverseBwtLoop pairs k start = Res.ok s ∧ s.length = k := by
  induction k generalizing start with
  | zero => exact ⟨[], rfl, rfl⟩
  | succ k ih =>
    obtain ⟨s, h1, h2⟩ := ih pairs[start].1 (h _ (List.getElem_mem hs))
    refine ⟨pairs[start].2 :: s, ?_, by simp [h2]⟩
    simp only [inverseBwtLoop, idx, List.getElem?_eq_getElem hs, Res.ofOption_some, Res.ok_bind, h1]
    rfl

/-- `inverse_bwt` does not fail when the pointer lies in the block. -/
theorem inverseBwt_total (last : List UInt8) (ptr : Nat) (h : ptr < last.length) :
    ∃ s, inverseBwt last ptr = Res.ok s ∧ s.length = last.length := by
  have hlen : (sortedPairs last).length = last.length := by
    simp [sortedPairs, stableSort_length]
  have hmem : ∀ p ∈ sortedPairs last, p.1 < (sortedPairs last).length := by
    intro p hp
    rw [hlen]
    simp only [sortedPairs, mem_stableSort, List.mem_map] at hp
    obtain ⟨q, hq, rfl⟩ := hp
    have := List.mem_zipIdx hq
    simpa using this.2.1
  have hex : (last[ptr], ptr) ∈ last.zipIdx := by
    rw [List.mem_iff_getElem]
    exact ⟨ptr, by simpa using h, by simp⟩
  have hfind : ((sortedPairs last).find? fun p => p.1 == ptr).isSome = true := by
    rw [List.find?_isSome]
    exact ⟨(ptr, last[ptr]), by
      simp only [sortedPairs, mem_stableSort, List.mem_map]; exact ⟨_, hex, rfl⟩, by simp⟩
  obtain ⟨q, hq⟩ := Option.isSome_iff_exists.1 hfind
  obtain ⟨s, s1, s2⟩ := inverseBwtLoop_total (sortedPairs last) hmem last.length q.1
    (hmem q (List.mem_of_find?_eq_some hq))
  exact ⟨s, by simp only [inverseBwt, hq, Res.ofOption_some, Res.ok_bind, s1], s2⟩

/-! ### Decoding written blocks -/

theorem finishBlock_stages (p : BlockParts) (hu : p.used.Pairwise (· < ·))
    (hs : ∀ s ∈ p.syms, s < p.used.length + 1)
    (hm : mtfDecode p.used (zleDecode 1 p.syms) = some p.last) (hlen : p.last.length + 1 ≤ 2 ^ 63)
    (crc : BitVec 32) :
    finishBlock crc p.ptr p.used (p.syms.map symbolOfIndex) = (inverseBwt p.last p.ptr >>= fun s =>
      if Ribzip2.crc32 (inverseRle s) = crc then Res.ok (inverseRle s) else Res.err) := by
  have h256 := used_length_le hu
  have hzl := mtfDecode_length _ _ _ hm
  have hidx : (p.syms.map symbolOfIndex).map symbolIndex = p.syms :=
    map_symbolIndex _ fun s h => by have := hs s h; omega
  have hz := decodeZle_eq (p.syms.map symbolOfIndex)
    (by
      intro n hn
      obtain ⟨i, hi, e⟩ := List.mem_map.1 hn
      exact symbolOfIndex_number e (by have := hs i hi; omega))
    (by rw [hidx]; omega)
  rw [hidx] at hz
  have hpos := mtfDecode_pos_lt _ _ _ hm
  have hinv : inverseMtf ((zleDecode 1 p.syms).map UInt8.ofNat) p.used = Res.ok p.last := by
    have := inverseMtfLoop_spec ((zleDecode 1 p.syms).map UInt8.ofNat) p.used
      (hu.imp (fun {a b} (h : a < b) => by rintro rfl; exact absurd h (by simp)))
    rw [map_toNat_ofNat _ (fun x hx => by have := hpos x hx; omega), hm] at this
    exact this
  simp only [finishBlock, hz, Res.ok_bind, hinv]
  rfl

/-- A block written by the encoder is decoded to its content if it is safe for the transform and has no
count collision. -/
theorem pBlock_written_ok (nc : Nat) (b : List UInt8 × List Bool)
    (hb : ∃ p, WrittenBlock nc b.1 p ∧ b.2 = p.body)
    (h : TransformSafe (rle1Encode b.1) ∧ noCountCollision (runs b.1) = true) (rest : List Bit) :
    pBlock (natToBits 32 (Spec.crc32 b.1).toNat ++ b.2 ++ rest) = Res.ok (b.1, rest) := by
  obtain ⟨p, p1, p2⟩ := hb
  obtain ⟨h1, h2⟩ := h
  obtain ⟨last, ptr, f1, f2⟩ := C30_bwt_partial p.rle p1.ne (by rw [p1.rle]; exact h1)
  rw [p1.transform] at f1
  simp only [Res.ok.injEq, Prod.mk.injEq] at f1
  rw [← f1.1, ← f1.2] at f2
  have hs := p1.size
  have hr := p1.readable
  rw [p2, pBlock_body p hr, finishBlock_valid p hr.used hr.symbols p1.mtf f2 (by omega), p1.rle,
    inverseRle_encode _ h2, if_pos (crc32_eq_spec _)]
  rfl

/-- A stream of readable blocks decodes to its contents if every block is safe for the transform and has no
count collision. -/
theorem decodeBytes_written (nc : Nat) (blocks : List (List UInt8 × List Bool)) (bytes : List UInt8)
    (hb : ∀ b ∈ blocks, ∃ p, WrittenBlock nc b.1 p ∧ b.2 = p.body)
    (hs : PaddedTo8 (streamHeader 0x39 ++ blockFrames blocks ++ footerMagic
        ++ natToBits 32 (streamCrc blocks).toNat) (bytesBits bytes))
    (h : ∀ b ∈ blocks, TransformSafe (rle1Encode b.1) ∧ noCountCollision (runs b.1) = true) :
    decodeBytes bytes = Res.ok (contents blocks) := by
  obtain ⟨k, -, e4, -⟩ := hs
  exact decodeBytes_good 0x39 blocks bytes
    (natToBits 32 (streamCrc blocks).toNat ++ List.replicate k false)
    (fun b hb' rest => pBlock_written_ok nc b (hb b hb') (h b hb') rest) (by rw [e4]; simp)

end Ribzip2
