import Verif.Proofs.Decoder
import Verif.Proofs.Crc
import Verif.Spec.Container
/- Consequences for the decoder: no divergence, framing, monotonicity. -/
namespace Ribzip2
open Spec

/-! ### No stage of the decoder diverges -/

theorem bind_ne_div {α β : Type} {x : Res α} {f : α → Res β} (hx : x ≠ Res.div)
    (hf : ∀ a, f a ≠ Res.div) : (x >>= f) ≠ Res.div := by
  rcases x with a | _ | _ | _
  · exact hf a
  · simp
  · simp
  · exact absurd rfl hx

theorem unwrap_ne_div {α : Type} {x : Res α} (hx : x ≠ Res.div) : x.unwrap ≠ Res.div := by
  rcases x with a | _ | _ | _ <;> simp_all

theorem ofOption_ne_div {α : Type} (x : Option α) : Res.ofOption x ≠ Res.div := by
  cases x <;> simp

theorem idx_ne_div {α : Type} (l : List α) (i : Nat) : idx l i ≠ Res.div := ofOption_ne_div _

theorem takeBits_ne_div (n : Nat) (bs : List Bit) : takeBits n bs ≠ Res.div := by
  unfold takeBits; split <;> simp

theorem pReadBytes_ne_div (n : Nat) (bs : List Bit) : pReadBytes n bs ≠ Res.div := by
  induction n generalizing bs with
  | zero => simp [pReadBytes]
  | succ n ih =>
    exact bind_ne_div (takeBits_ne_div _ _) fun _ => bind_ne_div (ih _) fun _ => by simp

theorem pSymbolTable_ne_div (bs : List Bit) : pSymbolTable bs ≠ Res.div :=
  bind_ne_div (takeBits_ne_div _ _) fun _ => bind_ne_div (takeBits_ne_div _ _) fun _ => by simp

theorem pUnaryLoop_ne_div (amount : Nat) (bs : List Bit) (out : List UInt8) (c n : Nat) :
    pUnaryLoop amount bs out c n ≠ Res.div := by
  induction bs generalizing out c n with
  | nil => simp [pUnaryLoop]
  | cons b bs ih =>
    cases b <;> simp only [pUnaryLoop] <;> (repeat' split) <;> first | exact ih _ _ _ | simp

theorem pDeltaLoop_ne_div (amount : Nat) (bs : List Bit) (out : List UInt8) (c n : Nat) :
    pDeltaLoop amount bs out c n ≠ Res.div := by
  induction hl : bs.length using Nat.strongRecOn generalizing bs out c n with
  | _ len ih =>
    match bs with
    | [] => simp [pDeltaLoop]
    | [true] => simp [pDeltaLoop]
    | false :: tl =>
      simp only [pDeltaLoop]
      split
      · simp
      · exact ih tl.length (by simp at hl; omega) _ _ _ _ rfl
    | true :: b :: tl =>
      simp only [pDeltaLoop]
      split
      · split
        · simp
        · exact ih tl.length (by simp at hl; omega) _ _ _ _ rfl
      · simp

theorem pDelta_ne_div (amount : Nat) (bs : List Bit) : pDelta amount bs ≠ Res.div :=
  bind_ne_div (takeBits_ne_div _ _) fun _ => pDeltaLoop_ne_div _ _ _ _ _

theorem pSymbolsLoop_ne_div (table : List CanonicalEntry) (m : Nat) (bs : List Bit)
    (all : List ZleSymbol) (cur : List Bit) (n : Nat) :
    pSymbolsLoop table m bs all cur n ≠ Res.div := by
  induction bs generalizing all cur n with
  | nil => simp [pSymbolsLoop]
  | cons b bs ih =>
    simp only [pSymbolsLoop] <;> (repeat' split) <;> first | exact ih _ _ _ | simp

theorem pTrees_ne_div (amount n : Nat) (bs : List Bit) : pTrees amount n bs ≠ Res.div := by
  induction n generalizing bs with
  | zero => simp [pTrees]
  | succ n ih =>
    exact bind_ne_div (unwrap_ne_div (pDelta_ne_div _ _)) fun _ => bind_ne_div (ih _) fun _ => by simp

theorem pGroups_ne_div (tables : List (List CanonicalEntry)) (sel : List UInt8) (bs : List Bit) :
    pGroups tables sel bs ≠ Res.div := by
  induction sel generalizing bs with
  | nil => simp [pGroups]
  | cons s sel ih =>
    exact bind_ne_div (idx_ne_div _ _) fun _ =>
      bind_ne_div (unwrap_ne_div (pSymbolsLoop_ne_div _ _ _ _ _ _)) fun _ =>
        bind_ne_div (ih _) fun _ => by simp

theorem bringToFront_ne_div (p : Nat) (d : List UInt8) : bringToFront p d ≠ Res.div :=
  bind_ne_div (idx_ne_div _ _) fun _ => by simp

theorem inverseMtf_ne_div (input dict : List UInt8) : inverseMtf input dict ≠ Res.div := by
  unfold inverseMtf
  induction input generalizing dict with
  | nil => simp [inverseMtfLoop]
  | cons i rest ih =>
    refine bind_ne_div (idx_ne_div _ _) fun v => bind_ne_div (ofOption_ne_div _) fun pos => ?_
    dsimp only
    split
    · rw [Res.ok_bind]
      exact bind_ne_div (bringToFront_ne_div _ _) fun d => bind_ne_div (ih _) fun _ => by simp
    · simp

theorem fromWeights_ne_div (t : List UInt8) : fromWeights t ≠ Res.div := by
  refine bind_ne_div (by unfold subU; split <;> simp) fun k => ?_
  dsimp only; split <;> simp

theorem canonicalLoop_ne_div (last : List Bit) (l : List CodeTableEntry) :
    canonicalLoop last l ≠ Res.div := by
  induction l generalizing last with
  | nil => simp [canonicalLoop]
  | cons e l ih =>
    refine bind_ne_div (by unfold incrementSymbol; split <;> simp) fun k => ?_
    exact bind_ne_div (ih _) fun _ => by simp

theorem canonicalize_ne_div (t : List CodeTableEntry) : canonicalize t ≠ Res.div := by
  unfold canonicalize
  split
  · simp
  · exact bind_ne_div (canonicalLoop_ne_div _ _) fun _ => by simp

theorem buildTables_ne_div (t : List (List UInt8)) : buildTables t ≠ Res.div := by
  induction t with
  | nil => simp [buildTables]
  | cons a t ih =>
    exact bind_ne_div (fromWeights_ne_div _) fun _ => bind_ne_div (canonicalize_ne_div _) fun _ =>
      bind_ne_div ih fun _ => by simp

theorem decodeZeroAmount_ne_div (l : List ZleSymbol) : decodeZeroAmount l ≠ Res.div := by
  unfold decodeZeroAmount subU; dsimp only
  split
  · rw [Res.ok_bind]; split <;> simp
  · simp

theorem decodeZleLoop_ne_div (l z : List ZleSymbol) (out : List UInt8) :
    decodeZleLoop l z out ≠ Res.div := by
  induction l generalizing z out with
  | nil =>
    unfold decodeZleLoop; split
    · simp
    · exact bind_ne_div (decodeZeroAmount_ne_div _) fun _ => by simp
  | cons s l ih =>
    cases s with
    | runA => exact ih _ _
    | runB => exact ih _ _
    | number n =>
      unfold decodeZleLoop; split
      · exact ih _ _
      · exact bind_ne_div (decodeZeroAmount_ne_div _) fun _ => ih _ _

theorem inverseBwt_ne_div (d : List UInt8) (p : Nat) : inverseBwt d p ≠ Res.div := by
  refine bind_ne_div (ofOption_ne_div _) fun start => ?_
  generalize d.length = n
  generalize start.1 = s
  induction n generalizing s with
  | zero => simp [inverseBwtLoop]
  | succ n ih => exact bind_ne_div (idx_ne_div _ _) fun _ => bind_ne_div (ih _) fun _ => by simp

theorem finishBlock_ne_div (crc : BitVec 32) (p : Nat) (s : List UInt8) (z : List ZleSymbol) :
    finishBlock crc p s z ≠ Res.div := by
  refine bind_ne_div (decodeZleLoop_ne_div _ _ _) fun _ => bind_ne_div (inverseMtf_ne_div _ _) fun _ =>
    bind_ne_div (inverseBwt_ne_div _ _) fun _ => ?_
  dsimp only; split <;> simp

theorem pBlock_ne_div (bs : List Bit) : pBlock bs ≠ Res.div := by
  refine bind_ne_div (unwrap_ne_div (takeBits_ne_div _ _)) fun _ => ?_
  refine bind_ne_div (takeBits_ne_div _ _) fun _ => ?_
  refine bind_ne_div (unwrap_ne_div (takeBits_ne_div _ _)) fun _ => ?_
  refine bind_ne_div (unwrap_ne_div (pSymbolTable_ne_div _)) fun _ => ?_
  refine bind_ne_div (unwrap_ne_div (takeBits_ne_div _ _)) fun _ => ?_
  refine bind_ne_div (unwrap_ne_div (takeBits_ne_div _ _)) fun _ => ?_
  refine bind_ne_div (unwrap_ne_div (pUnaryLoop_ne_div _ _ _ _ _)) fun _ => ?_
  refine bind_ne_div (inverseMtf_ne_div _ _) fun _ => ?_
  refine bind_ne_div (pTrees_ne_div _ _ _) fun _ => ?_
  refine bind_ne_div (buildTables_ne_div _) fun _ => ?_
  refine bind_ne_div (pGroups_ne_div _ _ _) fun _ => ?_
  exact bind_ne_div (finishBlock_ne_div _ _ _ _) fun _ => by simp

theorem pWhatNext_ne (bs : List Bit) : pWhatNext bs ≠ Res.div ∧ pWhatNext bs ≠ Res.panic := by
  unfold pWhatNext
  have h1 := pReadBytes_ne_div 6 bs
  have h2 : pReadBytes 6 bs ≠ Res.panic := by
    generalize 6 = n
    induction n generalizing bs with
    | zero => simp [pReadBytes]
    | succ n ih =>
      simp only [pReadBytes, takeBits]
      split
      · simp only [Res.ok_bind]
        have := ih (List.drop 8 bs) (pReadBytes_ne_div _ _)
        generalize pReadBytes n (List.drop 8 bs) = y at *
        rcases y with ⟨a, b⟩ | _ | _ | _ <;> simp_all
      · simp
  generalize pReadBytes 6 bs = y at *
  rcases y with ⟨a, b⟩ | _ | _ | _
  · simp only [Res.ok_bind]
    constructor <;> (split; simp; split <;> simp)
  · simp
  · exact absurd rfl h2
  · exact absurd rfl h1

theorem pReadBytes_ne_panic (n : Nat) (bs : List Bit) : pReadBytes n bs ≠ Res.panic := by
  induction n generalizing bs with
  | zero => simp [pReadBytes]
  | succ n ih =>
    simp only [pReadBytes, takeBits]
    split
    · simp only [Res.ok_bind]
      have := ih (List.drop 8 bs)
      generalize pReadBytes n (List.drop 8 bs) = y at *
      rcases y with ⟨a, b⟩ | _ | _ | _ <;> simp_all
    · simp

theorem pBlocks_ne_div (fuel : Nat) (bs : List Bit) (h : bs.length < fuel) :
    (pBlocks fuel bs).2 ≠ Res.div := by
  induction fuel generalizing bs with
  | zero => omega
  | succ fuel ih =>
    have hw := (pWhatNext_ne bs).1
    simp only [pBlocks]
    rcases hwn : pWhatNext bs with ⟨t, mid⟩ | _ | _ | _
    · cases t
      · simp
      · simp only
        have hb := pBlock_ne_div mid
        have := pWhatNext_len hwn
        rcases hbn : pBlock mid with ⟨d, rest⟩ | _ | _ | _
        · have := Local.le Local.block hbn
          exact ih rest (by omega)
        · simp
        · simp
        · exact absurd hbn hb
    · simp
    · simp
    · exact absurd hwn hw

theorem pHeader_ne (bs : List Bit) : pHeader bs ≠ Res.div ∧ pHeader bs ≠ Res.panic := by
  unfold pHeader
  have h1 := pReadBytes_ne_div 4 bs
  have h2 := pReadBytes_ne_panic 4 bs
  generalize pReadBytes 4 bs = y at *
  rcases y with ⟨a, b⟩ | _ | _ | _
  · simp only
    split <;> simp
  · simp
  · exact absurd rfl h2
  · exact absurd rfl h1

theorem pStream_ne_div (bs : List Bit) : (pStream bs).2 ≠ Res.div := by
  unfold pStream
  have h1 := (pHeader_ne bs).1
  rcases h : pHeader bs with b | _ | _ | _
  · exact pBlocks_ne_div _ _ (by omega)
  · simp
  · simp
  · exact absurd h h1

/-! ### Inversion of the readers -/

theorem pReadBytes_bits {n : Nat} {bs : List Bit} {a : List UInt8} {rest : List Bit}
    (h : pReadBytes n bs = Res.ok (a, rest)) : bs = bytesBits a ++ rest := by
  induction n generalizing bs a rest with
  | zero => simp [pReadBytes] at h; simp [h.1, h.2]
  | succ n ih =>
    simp only [pReadBytes] at h
    rcases h1 : takeBits 8 bs with ⟨x, mid⟩ | _ | _ | _ <;> simp [h1] at h
    rcases h2 : pReadBytes n mid with ⟨y, r⟩ | _ | _ | _ <;> simp [h2] at h
    obtain ⟨h3, h4⟩ := takeBits_ok h1
    rw [← h.1, ← h.2, h3, ih h2, bytesBits_cons, byteBits_ofBits x h4, List.append_assoc]

theorem pReadBytes_append (a : List UInt8) (rest : List Bit) :
    pReadBytes a.length (bytesBits a ++ rest) = Res.ok (a, rest) := by
  induction a with
  | nil => simp [pReadBytes]
  | cons b a ih =>
    simp only [List.length_cons, pReadBytes, bytesBits_cons, List.append_assoc,
      takeBits_append (byteBits_length b), Res.ok_bind, ih, convertToNumber_byteBits, Res.pure_eq]

theorem pWhatNext_block (rest : List Bit) :
    pWhatNext (blockMagic ++ rest) = Res.ok (BlockType.blockHeader, rest) := by
  have := pReadBytes_append [0x31, 0x41, 0x59, 0x26, 0x53, 0x59] rest
  simp only [List.length_cons, List.length_nil, Nat.zero_add, Nat.reduceAdd] at this
  simp only [pWhatNext, blockMagic, this]; rfl

theorem pWhatNext_footer (rest : List Bit) :
    pWhatNext (footerMagic ++ rest) = Res.ok (BlockType.streamFooter, rest) := by
  have := pReadBytes_append [0x17, 0x72, 0x45, 0x38, 0x50, 0x90] rest
  simp only [List.length_cons, List.length_nil, Nat.zero_add, Nat.reduceAdd] at this
  simp only [pWhatNext, footerMagic, this]; rfl

theorem pWhatNext_inv {bs : List Bit} {t : BlockType} {rest : List Bit}
    (h : pWhatNext bs = Res.ok (t, rest)) :
    (t = BlockType.blockHeader ∧ bs = blockMagic ++ rest) ∨
    (t = BlockType.streamFooter ∧ bs = footerMagic ++ rest) := by
  simp only [pWhatNext] at h
  rcases h1 : pReadBytes 6 bs with ⟨x, mid⟩ | _ | _ | _ <;> simp [h1] at h
  have hb := pReadBytes_bits h1
  split at h
  · rename_i hx; simp at h; left; rw [← h.1, ← h.2, hb, hx]; exact ⟨rfl, rfl⟩
  · split at h
    · rename_i hx; simp at h; right; rw [← h.1, ← h.2, hb, hx]; exact ⟨rfl, rfl⟩
    · simp at h

theorem pHeader_inv {bs rest : List Bit} (h : pHeader bs = Res.ok rest) :
    ∃ level, bs = streamHeader level ++ rest := by
  unfold pHeader at h
  rcases h1 : pReadBytes 4 bs with ⟨x, mid⟩ | _ | _ | _ <;> simp [h1] at h
  have hb := pReadBytes_bits h1
  split at h
  · rename_i l; simp at h; exact ⟨l, by rw [← h, hb]; rfl⟩
  · simp at h

theorem pHeader_append (level : UInt8) (rest : List Bit) :
    pHeader (streamHeader level ++ rest) = Res.ok rest := by
  have := pReadBytes_append [0x42, 0x5a, 0x68, level] rest
  simp only [List.length_cons, List.length_nil, Nat.zero_add, Nat.reduceAdd] at this
  simp only [pHeader, streamHeader, this]

theorem pBlock_crc {bs : List Bit} {d : List UInt8} {rest : List Bit}
    (h : pBlock bs = Res.ok (d, rest)) :
    ∃ body, bs = natToBits 32 (Spec.crc32 d).toNat ++ body ++ rest := by
  obtain ⟨used, hu, hloc⟩ := Local.block _ _ _ h
  simp only [pBlock] at h
  rcases h1 : takeBits 32 bs with ⟨crcBits, b1⟩ | _ | _ | _ <;> simp [h1] at h
  obtain ⟨e1, l1⟩ := takeBits_ok h1
  rcases h2 : takeBits 1 b1 with ⟨x2, b2⟩ | _ | _ | _ <;> simp [h2] at h
  rcases h3 : takeBits 24 b2 with ⟨x3, b3⟩ | _ | _ | _ <;> simp [h3] at h
  rcases h4 : pSymbolTable b3 with ⟨x4, b4⟩ | _ | _ | _ <;> simp [h4] at h
  rcases h5 : takeBits 3 b4 with ⟨x5, b5⟩ | _ | _ | _ <;> simp [h5] at h
  rcases h6 : takeBits 15 b5 with ⟨x6, b6⟩ | _ | _ | _ <;> simp [h6] at h
  rcases h7 : pUnary (convertToNumber x6) b6 with ⟨x7, b7⟩ | _ | _ | _ <;> simp [h7] at h
  rcases h8 : inverseMtf x7 ((List.range (convertToNumber x5)).map UInt8.ofNat) with x8 | _ | _ | _ <;>
    simp [h8] at h
  rcases h9 : pTrees (x4.length + 2) (convertToNumber x5) b7 with ⟨x9, b9⟩ | _ | _ | _ <;>
    simp [h9] at h
  rcases h10 : buildTables x9 with x10 | _ | _ | _ <;> simp [h10] at h
  rcases h11 : pGroups x10 x8 b9 with ⟨x11, b11⟩ | _ | _ | _ <;> simp [h11] at h
  rcases h12 : finishBlock (BitVec.ofNat 32 (convertToNumber crcBits)) (convertToNumber x3) x4 x11
    with x12 | _ | _ | _ <;> simp [h12] at h
  obtain ⟨rfl, rfl⟩ := h
  have hcrc : Ribzip2.crc32 x12 = BitVec.ofNat 32 (convertToNumber crcBits) := by
    simp only [finishBlock] at h12
    rcases g1 : decodeZle x11 with y1 | _ | _ | _ <;> simp [g1] at h12
    rcases g2 : inverseMtf y1 x4 with y2 | _ | _ | _ <;> simp [g2] at h12
    rcases g3 : inverseBwt y2 (convertToNumber x3) with y3 | _ | _ | _ <;> simp [g3] at h12
    split at h12
    · simp at h12; rw [← h12]; assumption
    · simp at h12
  have hb : natToBits 32 (Spec.crc32 x12).toNat = crcBits := by
    rw [← crc32_eq_spec, hcrc, convertToNumber_eq, BitVec.toNat_ofNat]
    have := bitsToNat_lt crcBits
    rw [l1] at this
    rw [Nat.mod_eq_of_lt this, ← l1, natToBits_bitsToNat]
  rw [hb]
  have : crcBits <+: used := by
    refine List.prefix_of_prefix_length_le (l₃ := bs) ⟨b1, e1.symm⟩ ⟨_, hu.symm⟩ ?_
    by_cases hlen : 32 ≤ used.length
    · omega
    · exfalso
      have := hloc []
      simp only [List.append_nil] at this
      have hx : takeBits 32 used = Res.err := by simp [takeBits]; omega
      simp [pBlock, hx] at this
  obtain ⟨body, hbody⟩ := this
  exact ⟨body, by rw [hbody, hu]⟩

/-- Whatever is written is a sequence of blocks found in the input with their right CRCs. -/
theorem pBlocks_frames (fuel : Nat) (bs : List Bit) :
    ∃ bodies : List (List UInt8 × List Bool), ∃ tail,
      (pBlocks fuel bs).1 = bodies.map (·.1) ∧ bs = blockFrames bodies ++ tail ∧
      ((pBlocks fuel bs).2 = Res.ok () → ∃ t, tail = footerMagic ++ t) := by
  induction fuel generalizing bs with
  | zero => exact ⟨[], bs, by simp [pBlocks], by simp [blockFrames], by simp [pBlocks]⟩
  | succ fuel ih =>
    rcases hwn : pWhatNext bs with ⟨t, mid⟩ | _ | _ | _
    · rcases pWhatNext_inv hwn with ⟨rfl, e⟩ | ⟨rfl, e⟩
      · rcases hbn : pBlock mid with ⟨d, rest⟩ | _ | _ | _
        · obtain ⟨body, hbody⟩ := pBlock_crc hbn
          obtain ⟨bodies, tail, g1, g2, g3⟩ := ih rest
          refine ⟨(d, body) :: bodies, tail, by simp [pBlocks, hwn, hbn, g1], ?_, ?_⟩
          · rw [e, hbody, g2]
            simp [blockFrames, blockFrame]
          · simpa [pBlocks, hwn, hbn] using g3
        all_goals exact ⟨[], bs, by simp [pBlocks, hwn, hbn], by simp [blockFrames],
          by simp [pBlocks, hwn, hbn]⟩
      · exact ⟨[], bs, by simp [pBlocks, hwn], by simp [blockFrames], fun _ => ⟨mid, e⟩⟩
    all_goals exact ⟨[], bs, by simp [pBlocks, hwn], by simp [blockFrames], by simp [pBlocks, hwn]⟩

/-! ### Monotonicity in the input -/

theorem pBlocks_mono (fuel : Nat) (bs e : List Bit) :
    (pBlocks fuel bs).1 <+: (pBlocks fuel (bs ++ e)).1 ∧
    ((pBlocks fuel bs).2 = Res.ok () → pBlocks fuel (bs ++ e) = pBlocks fuel bs) := by
  induction fuel generalizing bs with
  | zero => simp [pBlocks]
  | succ fuel ih =>
    rcases hwn : pWhatNext bs with ⟨t, mid⟩ | _ | _ | _
    · obtain ⟨u, hu, hloc⟩ := Local.whatNext _ _ _ hwn
      have hw' : pWhatNext (bs ++ e) = Res.ok (t, mid ++ e) := by
        rw [hu, List.append_assoc]; exact hloc _
      cases t
      · simp [pBlocks, hwn, hw']
      · rcases hbn : pBlock mid with ⟨d, rest⟩ | _ | _ | _
        · obtain ⟨u2, hu2, hloc2⟩ := Local.block _ _ _ hbn
          have hb' : pBlock (mid ++ e) = Res.ok (d, rest ++ e) := by
            rw [hu2, List.append_assoc]; exact hloc2 _
          obtain ⟨i1, i2⟩ := ih rest
          simp only [pBlocks, hwn, hw', hbn, hb']
          refine ⟨by simpa using i1, fun h => ?_⟩
          rw [i2 h]
        all_goals simp [pBlocks, hwn, hbn]
    all_goals simp [pBlocks, hwn]

theorem pStream_mono (bs e : List Bit) :
    (pStream bs).1 <+: (pStream (bs ++ e)).1 ∧
    ((pStream bs).2 = Res.ok () → pStream (bs ++ e) = pStream bs) := by
  unfold pStream
  rcases h : pHeader bs with b | _ | _ | _
  · obtain ⟨level, hl⟩ := pHeader_inv h
    have h' : pHeader (bs ++ e) = Res.ok (b ++ e) := by
      rw [hl, List.append_assoc, pHeader_append]
    simp only [h']
    have := pBlocks_mono ((b ++ e).length + 1) b e
    rw [pBlocks_fuel ((b ++ e).length + 1) (b.length + 1) b (by simp; omega) (by omega)] at this
    exact this
  all_goals simp

end Ribzip2
