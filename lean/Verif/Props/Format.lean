import Verif.Proofs.Banana
/- Properties C34, C35: every valid stream decodes; every stream written is valid. -/
namespace Ribzip2
open Spec

/-! ### C35 -/

theorem WrittenBlock.valid {n : Nat} {b : List UInt8} {p : BlockParts} (h : WrittenBlock n b p) (hn : 2 ≤ n) (hn2 : n ≤ 6)
    (hsafe : TransformSafe (rle1Encode b)) (hsize : (rle1Encode b).length ≤ 900000) :
    p.Valid 900000 b := by
  have hr := h.readable
  obtain ⟨last, ptr, e1, e2⟩ := C30_bwt_partial p.rle h.ne (by rw [h.rle]; exact hsafe)
  rw [h.transform] at e1
  simp only [Res.ok.injEq, Prod.mk.injEq] at e1
  rw [← e1.1, ← e1.2] at e2
  exact {
    content := by rw [h.rle, rle1Decode_encode]
    size := by rw [h.rle]; exact hsize
    transform := e2
    ptr := hr.ptr
    used := hr.used
    mtf := h.mtf
    symbols := hr.symbols
    numTables := by rw [h.numTables]; exact ⟨hn, hn2⟩
    lengths := hr.lengths
    transmitted := hr.transmitted
    numSelectors := hr.numSelectors
    selected := hr.selected
    enough := hr.enough }

/-- **C35**, partial: for every input and number of threads, if every block is safe for the transform and
holds at most 900000 bytes after run-length encoding, what `encode_stream` writes with the single-table
strategy is a valid bzip2 stream for the input. Missing: the other inputs, for which it is false
(`C35_refuted` for the transform, `C07_refuted` for the size). -/
theorem C35_output_valid_partial (dist : Distance) (d : List UInt8) (t : Nat) (ht : 1 ≤ t)
    (h : ∀ b ∈ blocksOf d, TransformSafe (rle1Encode b) ∧ (rle1Encode b).length ≤ 900000) :
    ∃ bytes, encodeBytes dist d t Strategy.single = Res.ok bytes ∧ ValidStream d bytes := by
  obtain ⟨blocks, bytes, e1, e2, e3, e4⟩ := encodeBytes_single dist d t ht
  refine ⟨bytes, e1, 9, blocks, ⟨by omega, by omega, e4⟩, ?_, ?_⟩
  · rw [contents, List.flatMap_def, e2, blocksOf_flatten]
  · intro b hb
    obtain ⟨p, p1, p2⟩ := e3 b hb
    obtain ⟨h1, h2⟩ := h b.1 (by rw [← e2]; exact List.mem_map.2 ⟨b, hb, rfl⟩)
    exact ⟨p, p1.valid (by omega) (by omega) h1 h2, p2⟩

/-- The hypotheses are met by "banana" with three threads. -/
example : ∃ bytes, encodeBytes euclid banana 3 Strategy.single = Res.ok bytes ∧ ValidStream banana bytes :=
  C35_output_valid_partial euclid banana 3 (by decide) banana_fits

/-- **C35** for inputs of up to 720000 bytes (one block, whose size then is never the problem), partial:
under the transform hypothesis alone. -/
theorem C35_output_valid_small_partial (dist : Distance) (d : List UInt8) (t : Nat) (ht : 1 ≤ t)
    (hlen : d.length ≤ 720000) (h : TransformSafe (rle1Encode d)) :
    ∃ bytes, encodeBytes dist d t Strategy.single = Res.ok bytes ∧ ValidStream d bytes := by
  apply C35_output_valid_partial dist d t ht
  intro b hb
  by_cases hd : d = []
  · subst hd; simp [blocksOf_nil] at hb
  · rw [blocksOf_small d hd hlen] at hb
    simp at hb
    subst hb
    have := rle1Encode_length b
    exact ⟨h, by omega⟩

/-- The hypotheses are met by "banana": no runs, safe transform. -/
example : TransformSafe (rle1Encode [98, 97, 110, 97, 110, 97]) := by
  have : rle1Encode [98, 97, 110, 97, 110, 97] = [98, 97, 110, 97, 110, 97] := by decide +kernel
  rw [this]
  apply transformSafe_of_minimal
  intro f hf
  have h5 : SmallestSuffixAt [98, 97, 110, 97, 110, 97] 5 := ⟨by decide, by decide +kernel⟩
  rw [smallestSuffixAt_unique hf h5]
  exact ⟨by decide, by decide +kernel⟩

/-! #### A valid block is read in only one way -/

/-- Reader of the two counters of a block: number of tables and number of selectors. -/
def pCounts (bs : List Bit) : Res (Nat × Nat) := do
  let (_, bs) ← takeBits 32 bs
  let (_, bs) ← takeBits 1 bs
  let (_, bs) ← takeBits 24 bs
  let (_, bs) ← pSymbolTable bs
  let (treeBits, bs) ← takeBits 3 bs
  let (selBits, _) ← takeBits 15 bs
  pure (convertToNumber treeBits, convertToNumber selBits)

theorem pCounts_body {p : BlockParts} {limit : Nat} {data : List UInt8} (h : p.Valid limit data)
    (crc : BitVec 32) (rest : List Bit) :
    pCounts (natToBits 32 crc.toNat ++ p.body ++ rest) = Res.ok (p.tables.length, p.sel.length) := by
  simp only [BlockParts.body, pCounts, List.append_assoc]
  rw [takeBits_append (natToBits_length 32 _)]
  simp only [Res.ok_bind]
  rw [takeBits_append (n := 1) rfl]
  simp only [Res.ok_bind]
  rw [takeBits_append (natToBits_length 24 _)]
  simp only [Res.ok_bind]
  rw [pSymbolTable_map]
  simp only [Res.ok_bind]
  rw [takeBits_append (natToBits_length 3 _)]
  simp only [Res.ok_bind]
  rw [takeBits_append (natToBits_length 15 _)]
  have := h.numTables
  simp only [Res.ok_bind, Res.pure_eq, number_bits 15 _ h.numSelectors, number_bits 3 p.tables.length (by omega)]

theorem isBwt_length {s last : List UInt8} {ptr : Nat} (hb : IsBwt s last ptr) :
    last.length = s.length ∧ s ≠ [] := by
  obtain ⟨rows, h1, -, h3, h4⟩ := hb
  have hl : rows.length = s.length := by rw [h1.length_eq, rotations, List.length_map, List.length_range]
  refine ⟨by rw [h3, List.length_map, hl], ?_⟩
  intro e
  rw [e] at hl
  rw [List.length_eq_zero_iff.1 hl] at h4
  simp at h4

theorem Spec.BlockParts.Valid.readable {p : BlockParts} {limit : Nat} {data : List UInt8}
    (h : p.Valid limit data) (hex : 50 * p.sel.length < p.syms.length + 51) : Readable p := by
  have h1 := isBwt_length h.transform
  exact {
    ptr := h.ptr
    used := h.used
    usedNe := by
      intro e
      have hm := h.mtf
      rw [e] at hm
      have hl := mtfDecode_length _ _ _ hm
      match hz : zleDecode 1 p.syms with
      | [] =>
        rw [hz] at hl
        exact h1.2 (List.length_eq_zero_iff.1 (by rw [← h1.1, hl]; rfl))
      | x :: xs => rw [hz] at hm; simp [mtfDecode] at hm
    symbols := h.symbols
    numTables := by have := h.numTables; omega
    lengths := h.lengths
    transmitted := h.transmitted
    numSelectors := h.numSelectors
    selected := h.selected
    enough := h.enough
    exact := hex }

/-- The bits of the stream behind its header, when they start with a block magic, start with a block. -/
theorem stream_first_block {data bytes : List UInt8} (h : ValidStream data bytes) (level : UInt8)
    (rest : List Bit) (hb : bytesBits bytes = streamHeader level ++ (blockMagic ++ rest)) :
    ∃ (limit : Nat) (b : List UInt8) (p : BlockParts) (tail : List Bit), p.Valid limit b ∧
      rest = natToBits 32 (Spec.crc32 b).toNat ++ p.body ++ tail := by
  obtain ⟨lv, blocks, ⟨-, -, k, -, hp, -⟩, -, hv⟩ := h
  rw [hb] at hp
  have hlen : ∀ x y : UInt8, (streamHeader x).length = (streamHeader y).length := by
    intro x y; simp [streamHeader]
  simp only [List.append_assoc] at hp
  have h2 := (List.append_inj hp (hlen _ _)).2
  match blocks with
  | [] =>
    simp only [blockFrames, List.flatMap_nil, List.nil_append] at h2
    have := (List.append_inj h2 (by decide)).1
    exact absurd this (by decide)
  | b :: blocks =>
    obtain ⟨p, p1, p2⟩ := hv b (by simp)
    simp only [blockFrames, List.flatMap_cons, blockFrame, List.append_assoc] at h2
    have h3 := List.append_cancel_left h2
    exact ⟨_, b.1, p, _, p1, by rw [h3, ← p2]; simp only [List.append_assoc]; rfl⟩

instance : DecidableEq (BitVec 32 × Nat × List UInt8 × List ZleSymbol) := inferInstance
instance : DecidableEq ((BitVec 32 × Nat × List UInt8 × List ZleSymbol) × List Bit) := instDecidableEqProd

/-- The bytes written for "baaa". -/
def baaaBytes : List UInt8 :=
  [66, 90, 104, 57, 49, 65, 89, 38, 83, 89, 232, 101, 129, 200, 0, 0, 1, 129, 0, 48, 0, 32, 0, 32, 169, 160,
   84, 209, 78, 46, 228, 138, 112, 161, 33, 208, 203, 3, 144]

/-- **C35 is false**: what is written for "baaa" is not a valid stream, for any content at all. -/
theorem C35_refuted : ∃ (d bytes : List UInt8), (∀ dist, encodeBytes dist d 1 Strategy.single = Res.ok bytes) ∧
    ∀ data, ¬ ValidStream data bytes := by
  refine ⟨[98, 97, 97, 97], baaaBytes, fun dist => ?_, ?_⟩
  · rw [encodeBytes_dist dist fun _ _ => 0]
    decide +kernel
  · intro data hv
    obtain ⟨limit, b, p, tail, p1, p2⟩ := stream_first_block hv 57 ((bytesBits baaaBytes).drop 80)
      (by decide +kernel)
    have c := pCounts_body p1 (Spec.crc32 b) tail
    rw [← p2] at c
    have hc : pCounts ((bytesBits baaaBytes).drop 80) = Res.ok (2, 1) := by decide +kernel
    rw [hc] at c
    simp only [Res.ok.injEq, Prod.mk.injEq] at c
    have hr := p1.readable (by omega)
    have q := pParts_body p hr (Spec.crc32 b) tail
    rw [← p2] at q
    have hq : ∃ r, pParts ((bytesBits baaaBytes).drop 80) = Res.ok ((0xe86581c8#32, 3, [97, 98],
        [ZleSymbol.runA, ZleSymbol.number 1, ZleSymbol.number 1, ZleSymbol.runA]), r) :=
      ⟨((bytesBits baaaBytes).drop 80).drop 151, by decide +kernel⟩
    obtain ⟨r, hq⟩ := hq
    rw [hq] at q
    simp only [Res.ok.injEq, Prod.mk.injEq] at q
    obtain ⟨⟨q1, q2, q3, q4⟩, -⟩ := q
    have hsy : p.syms = [0, 2, 2, 0] := by
      have := map_symbolIndex p.syms (fun s hs => by
        have := p1.symbols s hs
        have := used_length_le p1.used
        simp only [BlockParts.eob] at *
        omega)
      rw [← q4] at this
      rw [← this]
      rfl
    have hm := p1.mtf
    rw [hsy, ← q3] at hm
    have hm2 : mtfDecode [(97 : UInt8), 98] (zleDecode 1 [0, 2, 2, 0]) = some [97, 98, 97, 97] := by
      decide +kernel
    rw [hm2] at hm
    simp only [Option.some.injEq] at hm
    have hi := inverseBwt_spec _ _ _ p1.transform
    rw [← q2, ← hm] at hi
    have hi2 : inverseBwt [97, 98, 97, 97] 3 = Res.ok [98, 97, 97, 98] := by decide +kernel
    rw [hi2] at hi
    simp only [Res.ok.injEq] at hi
    have hcont := p1.content
    rw [← hi] at hcont
    rw [← hcont] at q1
    exact absurd q1 (by decide +kernel)

/-! ### C34 -/

/-- A valid block without surplus selectors and count hazard is decoded to its content. -/
theorem pBlock_valid (limit : Nat) (hl : limit ≤ 900000) (b : List UInt8 × List Bool)
    (hb : ∃ p : BlockParts, p.Valid limit b.1 ∧ b.2 = p.body ∧
      50 * p.sel.length < p.syms.length + 51 ∧ countHazard p.rle = false) (rest : List Bit) :
    pBlock (natToBits 32 (Spec.crc32 b.1).toNat ++ b.2 ++ rest) = Res.ok (b.1, rest) := by
  obtain ⟨p, p1, p2, p3, p4⟩ := hb
  have hs := p1.size
  rw [p2, pBlock_body p (p1.readable p3),
    finishBlock_valid p p1.used p1.symbols p1.mtf p1.transform (by omega), inverseRle_eq _ p4, p1.content,
    if_pos (crc32_eq_spec _)]
  rfl

/-- **C34**, partial: for every stream that is valid according to the format, of any level, with any number
of blocks from any encoder: if no block has more selectors than groups and no block has a repeat count
followed by three equal bytes and more, `decode_stream` returns Ok with the content. Missing: the other
valid streams, for which it is false (`C34_refuted_repeat_count`, `C34_refuted_extra_selector`). -/
theorem C34_valid_streams_decode_partial (level : Nat) (blocks : List (List UInt8 × List Bool))
    (bytes : List UInt8) (h : StreamOf level blocks bytes)
    (hb : ∀ b ∈ blocks, ∃ p : BlockParts, p.Valid (100000 * level) b.1 ∧ b.2 = p.body ∧
      50 * p.sel.length < p.syms.length + 51 ∧ countHazard p.rle = false) :
    decodeBytes bytes = Res.ok (contents blocks) := by
  obtain ⟨h1, h2, k, hk, hbits, -⟩ := h
  exact decodeBytes_good (UInt8.ofNat (0x30 + level)) blocks bytes
    (natToBits 32 (streamCrc blocks).toNat ++ List.replicate k false)
    (fun b hmem rest => pBlock_valid (100000 * level) (by omega) b (hb b hmem) rest) (by rw [hbits]; simp)

/-- The block "ab" with one selector more than groups, as another encoder may write it. -/
def abParts (selectors : List Nat) : BlockParts where
  rle := [97, 98]
  last := [98, 97]
  ptr := 0
  used := [97, 98]
  syms := [2, 2]
  tables := [[2, 2, 2, 2], [2, 2, 2, 2]]
  tableBits := List.replicate 2 [false, false, false, true, false, false, false, false, false]
  sel := selectors
  selBits := selectors.map fun _ => false

theorem lengthTable_2222 :
    LengthTable 1 20 [2, 2, 2, 2] [false, false, false, true, false, false, false, false, false] := by
  have h : LengthSteps 1 20 2 2 [false] := LengthSteps.done (by omega) (by omega)
  exact ⟨2, [false] ++ ([false] ++ ([false] ++ ([false] ++ []))), by omega, rfl,
    .cons h (.cons h (.cons h (.cons h .nil)))⟩

theorem abParts_valid (n : Nat) (hn : 1 ≤ n) (hn2 : n < 100) :
    (abParts (List.replicate n 0)).Valid 900000 [97, 98] where
  content := rfl
  size := by simp [abParts]
  transform := by
    show IsBwt [97, 98] [98, 97] 0
    exact ⟨[[97, 98], [98, 97]], by decide, by decide, by decide, by decide⟩
  ptr := by simp [abParts]
  used := by simp [abParts]
  mtf := by
    show mtfDecode [(97 : UInt8), 98] (zleDecode 1 [2, 2]) = some [98, 97]
    decide
  symbols := by simp [abParts, BlockParts.eob]
  numTables := by simp [abParts]
  lengths := by simp [abParts, KraftLe, kraft]
  transmitted := .cons lengthTable_2222 (.cons lengthTable_2222 .nil)
  numSelectors := by simp [abParts]; omega
  selected := by
    refine ⟨List.replicate n 0, ?_, ?_⟩
    · show mtfDecode [0, 1] (List.replicate n 0) = some (List.replicate n 0)
      clear hn hn2
      induction n with
      | zero => rfl
      | succ n ih =>
        simp only [List.replicate_succ, mtfDecode, List.getElem?_cons_zero, List.eraseIdx_zero, List.tail_cons, ih]
    · show (List.replicate n 0).map (fun _ => false) = _
      clear hn hn2
      induction n with
      | zero => rfl
      | succ n ih => simp only [List.replicate_succ, List.map_cons, List.flatMap_cons, ih]; rfl
  enough := by simp [abParts]; omega

/-- A stream with one block for "ab", with one selector, meets the hypotheses of `C34_valid_streams_decode_partial`. -/
example : ∃ bytes, StreamOf 9 [([97, 98], (abParts [0]).body)] bytes ∧
    (abParts [0]).Valid (100000 * 9) [97, 98] ∧ 50 * (abParts [0]).sel.length < (abParts [0]).syms.length + 51 ∧
    countHazard (abParts [0]).rle = false :=
  ⟨[66, 90, 104, 57, 49, 65, 89, 38, 83, 89, 233, 147, 253, 205, 0, 0, 0, 1, 0, 48, 0, 32, 0, 33,
    0, 130, 177, 119, 36, 83, 133, 9, 14, 153, 63, 220, 208], ⟨by omega, by omega, 4, by omega, by decide +kernel,
    by decide +kernel⟩, abParts_valid 1 (by omega) (by omega), by decide, by decide⟩

/-- **C34 is false** (1): a valid stream with a surplus selector, which bzip2 decodes to "ab", is
refused: the decoder goes on reading symbols behind the end-of-block symbol. -/
theorem C34_refuted_extra_selector : ∃ data bytes, ValidStream data bytes ∧ decodeBytes bytes = Res.err := by
  refine ⟨[97, 98], [66, 90, 104, 57, 49, 65, 89, 38, 83, 89, 233, 147, 253, 205, 0, 0, 0, 1, 0, 48, 0, 32, 0, 64,
    128, 65, 88, 187, 146, 41, 194, 132, 135, 76, 159, 238, 104],
    ⟨9, [([97, 98], (abParts [0, 0]).body)], ⟨by omega, by omega, 3, by omega, by decide +kernel, by decide +kernel⟩,
      rfl, ?_⟩, by decide +kernel⟩
  intro b hb
  simp only [List.mem_singleton] at hb
  subst hb
  exact ⟨_, abParts_valid 2 (by omega) (by omega), rfl⟩

/-- The hypotheses of C34 are met: the same block with one selector. -/
example : ∃ bytes, StreamOf 9 [([97, 98], (abParts [0]).body)] bytes ∧
    (abParts [0]).Valid 900000 [97, 98] ∧ 50 * (abParts [0]).sel.length < (abParts [0]).syms.length + 51 ∧
    countHazard (abParts [0]).rle = false ∧ decodeBytes bytes = Res.ok [97, 98] := by
  refine ⟨[66, 90, 104, 57, 49, 65, 89, 38, 83, 89, 233, 147, 253, 205, 0, 0, 0, 1, 0, 48, 0, 32, 0, 33, 0, 130, 177,
    119, 36, 83, 133, 9, 14, 153, 63, 220, 208], ⟨by omega, by omega, 4, by omega, by decide +kernel, by decide +kernel⟩,
    abParts_valid 1 (by omega) (by omega), by decide, by decide, by decide +kernel⟩

/-- **C34 is false** (2): a repeat count followed by three equal bytes and one more. The stream is valid
for 1,1,1,1,0,0,0,5 (this library wrote it); the decoder refuses it. -/
theorem C34_refuted_repeat_count : ∃ data bytes, ValidStream data bytes ∧ decodeBytes bytes = Res.err := by
  obtain ⟨bytes, h1, h2⟩ := C35_output_valid_small_partial (fun _ _ => 0) [1, 1, 1, 1, 0, 0, 0, 5] 1 (by omega)
    (by decide) (by
      have : rle1Encode [1, 1, 1, 1, 0, 0, 0, 5] = [1, 1, 1, 1, 0, 0, 0, 0, 5] := by decide +kernel
      rw [this]
      apply transformSafe_of_minimal
      intro f hf
      have h4 : SmallestSuffixAt [1, 1, 1, 1, 0, 0, 0, 0, 5] 4 := ⟨by decide, by decide +kernel⟩
      rw [smallestSuffixAt_unique hf h4]
      exact ⟨by decide, by decide +kernel⟩)
  refine ⟨_, bytes, h2, ?_⟩
  have : encodeBytes (fun _ _ => 0) [1, 1, 1, 1, 0, 0, 0, 5] 1 Strategy.single
      = Res.ok [66, 90, 104, 57, 49, 65, 89, 38, 83, 89, 199, 237, 241, 227, 0, 0, 3, 192, 0, 98, 0, 32, 0, 34, 55,
        165, 8, 222, 148, 51, 87, 139, 185, 34, 156, 40, 72, 99, 246, 248, 241, 128] := by decide +kernel
  rw [this] at h1
  simp only [Res.ok.injEq] at h1
  rw [← h1]
  decide +kernel

end Ribzip2
