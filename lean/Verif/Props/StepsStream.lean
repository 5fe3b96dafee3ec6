import Verif.Proofs.StepsStream
import Verif.Props.StepsBlock
import Verif.Proofs.BlockWise
import Verif.Props.RoundTrip
/- Property C80, for whole streams: `encode_stream` takes linear time. -/
namespace Ribzip2
open Spec Cost

/-! ### the size of a block -/

theorem emitBlock_length (crc : BitVec 32) (ptr : Nat) (used : List UInt8) (zle : List ZleSymbol) (rep : ReportedSymbols)
    (n nc : Nat) (hn : used.length = n) (h1 : 1 ≤ n) (h2 : n ≤ 256) (hs : StatsOk n nc zle rep)
    (hz : ∀ s ∈ zle, SymOk n s) (bits : List Bit) (h : emitBlock crc ptr used zle rep = Res.ok bits) :
    bits.length ≤ 412 + nc + nc * (33 * (n + 2) + 5) + rep.selectors.length * nc + 17 * zle.length := by
  subst hn
  obtain ⟨tables, ht⟩ := codeTables_ok used.length h1 h2 rep.frequencies hs.dims
  obtain ⟨encs, e1, -, -⟩ := createSelectors_eq rep.selectors
  have hlen : ∀ ls ∈ tables, ls.length = used.length + 2 := fun ls h => (ht.lengths ls h).1
  have hls : ∀ ls ∈ tables, ∀ l ∈ ls, 1 ≤ l ∧ l ≤ 17 := fun ls h l hl =>
    ⟨(ht.lengths ls h).2.2 l hl, (ht.complete ls h).1 l hl⟩
  have hcount : tables.length = nc := by rw [ht.count, hs.count]
  have hsel' : ∀ s ∈ rep.selectors, s.toNat < tables.length := by rw [hcount]; exact hs.sel
  have henough := hs.enough
  have hfit := hs.fit
  have hp := encodeSymbols_ok used.length h2 tables hlen rep.selectors hsel' zle hz 0 (by omega)
  obtain ⟨ls, l1, l2, l3⟩ := tableAt_ok tables rep.selectors hsel' zle.length (by omega)
  have hn : (UInt16.ofNat rep.selectors.length).toNat = rep.selectors.length :=
    UInt16.toNat_ofNat_of_lt' (by show _ < 65536; omega)
  have h15' := convertToCodePadTo15Bits_eq (UInt16.ofNat rep.selectors.length) (by rw [hn]; exact hfit)
  have heob := codeOf_canonTable ls (by rw [hlen ls l1]; omega) (used.length + 1) (by rw [hlen ls l1]; omega)
  rw [hlen ls l1, symbolAt, if_pos rfl] at heob
  obtain ⟨-, b2⟩ := createSelectorsC_runs rep.selectors _ rfl _ e1
  obtain ⟨-, b3⟩ := getSymbolTableC_runs used
  have he17 : (codeBits ls (used.length + 1)).length ≤ 17 :=
    canonTable_code_le ls 17 (fun x hx => (hls ls l1 x hx).2) ⟨codeBits ls (used.length + 1), HSym.eob⟩
      (List.mem_of_find?_eq_some heob)
  have hhead : (blockHeader crc ptr).length = 105 := by
    have hm : blockMagic.length = 48 := by rw [blockMagic, bytesBits_length]; rfl
    rw [blockHeader_eq]
    simp only [List.length_append, hm, natToBits_length, List.length_cons, List.length_nil]
  have hnt : (convertToCodePadToNBits (tables.map canonTable).length 3).length ≤ nc + 3 := by
    rw [List.length_map, hcount]
    exact convertToCodePadToNBits_length _ _
  have hb : bits = blockHeader crc ptr ++ getSymbolTable used
      ++ convertToCodePadToNBits (tables.map canonTable).length 3
      ++ natToBits 15 (UInt16.ofNat rep.selectors.length).toNat ++ unaryCode encs
      ++ (tables.map canonTable).flatMap encodeCodeTable
      ++ payloadBits tables (rep.selectors.map UInt8.toNat) 0 (zle.map symbolIndex)
      ++ codeBits ls (used.length + 1) := by
    simp only [emitBlock, ht.made, e1, Res.ok_bind, h15', hp, l2, heob, Res.ofOption_some, Res.pure_eq,
      Res.ok.injEq] at h
    exact h.symm
  have htab : ((tables.map canonTable).flatMap encodeCodeTable).length ≤ (33 * (used.length + 2) + 5) * nc := by
    rw [← hcount, ← List.length_map (as := tables) canonTable]
    refine flatMap_length_le _ _ _ fun T hT => ?_
    obtain ⟨l, hl, rfl⟩ := List.mem_map.1 hT
    have := encodeCodeTable_length l 17 (by omega) (hls l hl)
    rw [hlen l hl] at this
    omega
  have hpay := payloadBits_length_le tables 17 (fun l hl x hx => (hls l hl x hx).2) (rep.selectors.map UInt8.toNat) 0
    (zle.map symbolIndex)
  have hu := usedBytes_length_le_bound rep.selectors nc hs.sel
  have hselb : rep.selectors.length * (usedBytes rep.selectors).length ≤ rep.selectors.length * nc :=
    Nat.mul_le_mul_left _ hu
  rw [Nat.mul_comm _ nc] at htab
  rw [hb]
  simp only [List.length_append, hhead, natToBits_length, List.length_map] at *
  omega

/-- The number of bits of a block made with workable statistics. -/
theorem block_bits (dist : Distance) (strategy : Strategy) (nc : Nat) (hw : Workable dist strategy nc)
    (crc : BitVec 32) (rle : List UInt8) (hne : rle ≠ []) (hlen : rle.length + 1 < 2 ^ 20) (bits : List Bit)
    (h : generateBlockData dist strategy crc rle = Res.ok bits) :
    ∃ zle rep, blockStats dist strategy rle = Res.ok (zle, rep) ∧ zle.length ≤ rle.length ∧
      bits.length ≤ 412 + 8520 * nc + rep.selectors.length * nc + 17 * rle.length := by
  obtain ⟨last, ptr, b1, b2, -⟩ := C30_bwt_never_fails rle hne
  obtain ⟨enc, m1, m2, m3, m4⟩ := mtf_spec last
  have hlast : last.length = rle.length := b2.length_eq
  have hused : usedBytes last = usedBytes rle := by
    unfold usedBytes
    congr 1
    funext b
    simp [b2.mem_iff]
  rw [hused] at m1 m4
  have hun : 1 ≤ (usedBytes rle).length := by
    obtain ⟨x, hx⟩ := List.exists_mem_of_ne_nil rle hne
    exact List.length_pos_of_mem (mem_usedBytes.2 hx)
  have hk256 := usedBytes_length rle
  obtain ⟨rep, f1, f2⟩ := hw _ enc hun m4 (by omega)
  have hz := zleEncode_symOk _ hun enc m4
  have hzl : (zleEncode 0 enc).length ≤ rle.length := by have := zleEncode_length 0 enc; omega
  have he : emitBlock crc ptr (usedBytes rle) (zleEncode 0 enc) rep = Res.ok bits := by
    rw [← h]
    simp only [generateBlockData, b1, Res.ok_bind, m1, f1]
  refine ⟨zleEncode 0 enc, rep, ?_, hzl, ?_⟩
  · simp only [blockStats, b1, Res.ok_bind, m1]
    exact f1
  · have := emitBlock_length crc ptr (usedBytes rle) (zleEncode 0 enc) rep _ nc rfl hun hk256 f2 hz bits he
    have h3 : nc * (33 * ((usedBytes rle).length + 2) + 5) ≤ nc * 8519 := Nat.mul_le_mul_left _ (by omega)
    omega

/-! ### streams -/

private theorem cost_sum (a c : Nat) (bs : List (List UInt8)) :
    4 * (bs.map fun b => a * (rle1Encode b).length + c).sum ≤ 5 * a * bs.flatten.length + 4 * c * bs.length := by
  induction bs with
  | nil => simp
  | cons b bs ih =>
    have h1 := Nat.mul_le_mul_left a (rle1Encode_length b)
    simp only [List.map_cons, List.sum_cons, List.flatten_cons, List.length_append, List.length_cons]
    have e1 : a * (4 * (rle1Encode b).length) = 4 * (a * (rle1Encode b).length) := by ring
    have e2 : a * (5 * b.length) = 5 * a * b.length := by ring
    rw [e1, e2] at h1
    have e3 : 5 * a * (b.length + bs.flatten.length) = 5 * a * b.length + 5 * a * bs.flatten.length := by ring
    have e4 : 4 * c * (bs.length + 1) = 4 * c * bs.length + 4 * c := by ring
    rw [e3, e4]
    omega

private theorem stream_sum {a c t k s0 n e S B x y : Nat} (hk : 4 * k ≤ 4 * s0 + 73 * n + 4 * e + 4 * S + (4 * t + 2300) * (B + 1) + 4)
    (hS : 4 * S ≤ 5 * a * n + 4 * c * B) (hB : B ≤ n / 720000 + 1) (hs : s0 ≤ t + 206) (hx : x ≤ 574) (hy : y = k + x + 24) :
    4 * y ≤ (5 * a + 73) * n + 4 * c * (n / 720000 + 1) + (4 * t + 2300) * (n / 720000 + 2) + 4 * t + 4 * e + 4000 := by
  have h1 : 4 * c * B ≤ 4 * c * (n / 720000 + 1) := Nat.mul_le_mul_left _ hB
  have h2 : (4 * t + 2300) * (B + 1) ≤ (4 * t + 2300) * (n / 720000 + 2) := Nat.mul_le_mul_left _ (by omega)
  have h3 : (5 * a + 73) * n = 5 * a * n + 73 * n := by ring
  omega

/-- `encode_stream` for a strategy that takes at most `a n + c` steps for a block of `n` bytes and writing it. -/
theorem encodeStreamC_runs (dist : Distance) (strategy : Strategy) (a c : Nat)
    (hg : ∀ (crc : BitVec 32) (rle : List UInt8), rle ≠ [] → rle.length + 1 < 2 ^ 20 →
      ∃ bits k, (generateBlockDataC dist strategy crc rle).run = Res.ok (bits, k) ∧
        generateBlockData dist strategy crc rle = Res.ok bits ∧ k + 4 * bits.length ≤ a * rle.length + c)
    (es : List REvent) (h : Steady es) (w : Writer) (t : Nat) (ht : 1 ≤ t) :
    ∃ steps, encodeStreamC dist ⟨es, false⟩ w t strategy = ((encodeStream dist ⟨es, false⟩ w t strategy).1,
        (encodeStream dist ⟨es, false⟩ w t strategy).2 >>= fun u => Res.ok (u, steps)) ∧
      4 * steps ≤ (5 * a + 73) * (scriptBytes es).length + 4 * c * ((scriptBytes es).length / 720000 + 1)
        + (4 * t + 2300) * ((scriptBytes es).length / 720000 + 2) + 4 * t + 4 * es.length + 4000 := by
  unfold encodeStreamC encodeStream encodeStreamFuel
  dsimp only
  have hbw0 : (BitWriter.fromWriter w).pending.length < 8 := by simp [BitWriter.fromWriter]
  have hs1 := writeBitsSteps_le (BitWriter.fromWriter w) fileHeader hbw0
  have hfh : fileHeader.length = 32 := by decide
  rcases h1 : (BitWriter.fromWriter w).writeBits fileHeader with ⟨bw, r⟩
  cases r with
  | ok u =>
    have hp := writeChunks_pending _ _ _ _ h1
    obtain ⟨k, m1, m2, m3⟩ := mainLoopC_runs (fun work => generateBlockData dist strategy work.crc work.rleTotal)
      (fun work => generateBlockDataC dist strategy work.crc work.rleTotal) (fun b => a * (rle1Encode b).length + c)
      (fun b hb hl => hg (crc32 b) (rle1Encode b) (rle1Encode_ne_nil b hb) (by omega)) t ht
      (eventsSize es + es.length + 2) es h false (by simp) bw hp 0 (by rw [eventsSize_eq]; omega)
      (t + (2 * fileHeader.length + writeBitsSteps (BitWriter.fromWriter w) fileHeader))
    dsimp only [Res.unwrap, andThen]
    rw [m2]
    rcases h2 : mainLoop (fun work => generateBlockData dist strategy work.crc work.rleTotal) false t
      (eventsSize es + es.length + 2) es false bw 0 with ⟨bw2, r⟩
    rw [h2] at m3
    cases r with
    | ok crc =>
      have hp2 := m3 crc rfl
      have hs2 := writeBitsSteps_le bw2 (streamFooter crc) hp2
      have hsf : (streamFooter crc).length = 80 := by
        have hm : footerMagic.length = 48 := by rw [footerMagic, bytesBits_length]; rfl
        rw [footer_eq, List.length_append, hm, natToBits_length]
      dsimp only [Res.ok_bind, andThen]
      rcases h3 : bw2.writeBits (streamFooter crc) with ⟨bw3, r⟩
      refine ⟨k + (3 * (streamFooter crc).length + writeBitsSteps bw2 (streamFooter crc)) + 24, ?_, ?_⟩
      · cases r with
        | ok u => rfl
        | err => rfl
        | panic => rfl
        | div => rfl
      · have hB := blocksOf_length (scriptBytes es)
        have hc := cost_sum a c (blocksOf (scriptBytes es))
        rw [blocksOf_flatten] at hc
        rw [eventsSize_eq] at m1
        exact stream_sum m1 hc (by omega) (by omega) (by omega) rfl
    | err => exact ⟨0, rfl, by omega⟩
    | panic => exact ⟨0, rfl, by omega⟩
    | div => exact ⟨0, rfl, by omega⟩
  | err => exact ⟨0, rfl, by omega⟩
  | panic => exact ⟨0, rfl, by omega⟩
  | div => exact ⟨0, rfl, by omega⟩

/-- **C80 (stream).** `encode_stream` with one table per block, reading `n` bytes from a reader that delivers them in `c`
calls of `read` (of which some may be interrupted), with `t ≥ 1` threads and whatever writer: all threads together take at
most `1200 n + t (n / 720000 + 3) + c + 16100000` steps. The counted program does what the program does: it leaves the
writer in the same state and ends in the same way. -/
theorem C80_stream_is_linear (dist : Distance) (es : List REvent) (h : Steady es) (w : Writer) (t : Nat) (ht : 1 ≤ t) :
    ∃ steps, encodeStreamC dist ⟨es, false⟩ w t Strategy.single = ((encodeStream dist ⟨es, false⟩ w t Strategy.single).1,
        (encodeStream dist ⟨es, false⟩ w t Strategy.single).2 >>= fun u => Res.ok (u, steps)) ∧
      steps ≤ 1200 * (scriptBytes es).length + t * ((scriptBytes es).length / 720000 + 3) + es.length + 16100000 := by
  obtain ⟨steps, h1, h2⟩ := encodeStreamC_runs dist Strategy.single 926 16070000 (fun crc rle hne hlen => by
    obtain ⟨bits, k, g1, g2, g3⟩ := C80_block_is_linear_simple dist crc rle hne hlen
    obtain ⟨zle, rep, b1, b2, b3⟩ := block_bits dist Strategy.single 2 (single_workable dist) crc rle hne hlen bits g2
    obtain ⟨-, hP⟩ := single_good dist rle hne hlen zle rep b1
    exact ⟨bits, k, g1, g2, by omega⟩) es h w t ht
  refine ⟨steps, h1, ?_⟩
  generalize (scriptBytes es).length = n at *
  have e1 : (4 * t + 2300) * (n / 720000 + 2) = 4 * (t * (n / 720000 + 3)) - 4 * t + 2300 * (n / 720000 + 2) := by
    have : 4 * (t * (n / 720000 + 3)) = 4 * t * (n / 720000 + 2) + 4 * t := by ring
    rw [this, Nat.add_sub_cancel]
    ring
  have e2 : t * 1 ≤ t * (n / 720000 + 3) := Nat.mul_le_mul_left _ (by omega)
  omega

/-- **C80 (stream, block-wise strategy).** The same with `nc ≥ 1` tables from `it` iterations of the clustering. -/
theorem C80_stream_is_linear_block_wise (dist : Distance) (nc it : Nat) (hnc : 1 ≤ nc) (es : List REvent) (h : Steady es)
    (w : Writer) (t : Nat) (ht : 1 ≤ t) (n : Nat) (hn : (scriptBytes es).length = n) :
    ∃ steps, encodeStreamC dist ⟨es, false⟩ w t (Strategy.blockWise nc it) =
        ((encodeStream dist ⟨es, false⟩ w t (Strategy.blockWise nc it)).1,
          (encodeStream dist ⟨es, false⟩ w t (Strategy.blockWise nc it)).2 >>= fun u => Res.ok (u, steps)) ∧
      4 * steps ≤ (5 * (1178 + (nc + 1) * (1 + 6 * it)) + 73) * n
        + 4 * (7900000 * nc + (nc + 1) * (16 + 777 * it) + 220000) * (n / 720000 + 1)
        + (4 * t + 2300) * (n / 720000 + 2) + 4 * t + 4 * es.length + 4000 := by
  subst hn
  refine encodeStreamC_runs dist (Strategy.blockWise nc it) _ _ (fun crc rle hne hlen => ?_) es h w t ht
  obtain ⟨bits, k, g1, g2, g3⟩ := C80_block_is_linear_block_wise dist nc it hnc crc rle hne hlen _ rfl
  obtain ⟨zle, rep, b1, b2, b3⟩ := block_bits dist _ nc (blockWise_workable dist nc it hnc) crc rle hne hlen bits g2
  obtain ⟨hP, -⟩ := blockWise_stats dist nc it hnc rle hne zle rep b1
  refine ⟨bits, k, g1, g2, ?_⟩
  have hk := usedBytes_length rle
  generalize (usedBytes rle).length = u at *
  generalize rle.length = N at *
  have hP' : rep.selectors.length ≤ N / 50 + 2 := by omega
  generalize rep.selectors.length = P at *
  have f1 : (86 + 4 * u) * N ≤ 1110 * N := Nat.mul_le_mul_right _ (by omega)
  have f2 : it * ((N / 50 + 3) * ((nc + 1) * (u + 3))) ≤ it * ((N / 50 + 3) * ((nc + 1) * 259)) :=
    Nat.mul_le_mul_left _ (Nat.mul_le_mul_left _ (Nat.mul_le_mul_left _ (by omega)))
  have e2 : (u + 2) ^ 2 ≤ 66564 := Nat.pow_le_pow_left (show u + 2 ≤ 258 by omega) 2
  have f3 : nc * (110 * (u + 2) ^ 2 + 2072 * (u + 2) + 734) ≤ nc * 7857350 := Nat.mul_le_mul_left _ (by omega)
  have f4 : P * nc ≤ (N / 50 + 2) * nc := Nat.mul_le_mul_right _ hP'
  have f5 : it * ((N / 50 + 3) * ((nc + 1) * 259)) ≤ (nc + 1) * (6 * it) * N + (nc + 1) * (777 * it) := by
    have h1 : it * ((N / 50 + 3) * ((nc + 1) * 259)) = (nc + 1) * it * (259 * (N / 50)) + (nc + 1) * (777 * it) := by ring
    have h2 : (nc + 1) * (6 * it) * N = (nc + 1) * it * (6 * N) := by ring
    rw [h1, h2]
    exact Nat.add_le_add_right (Nat.mul_le_mul_left _ (by omega)) _
  have f6 : (N / 50 + 2) * (4 * nc + 4) + 4 * ((N / 50 + 2) * nc) ≤ (nc + 1) * N + (nc + 1) * 16 := by
    have h1 : (N / 50 + 2) * (4 * nc + 4) + 4 * ((N / 50 + 2) * nc) ≤ (nc + 1) * (8 * (N / 50 + 2)) := by
      have : (nc + 1) * (8 * (N / 50 + 2)) = (N / 50 + 2) * (4 * nc + 4) + 4 * ((N / 50 + 2) * nc) + 4 * (N / 50 + 2) := by
        ring
      omega
    refine le_trans h1 ?_
    rw [← Nat.mul_add]
    exact Nat.mul_le_mul_left _ (by omega)
  have e3 : (1178 + (nc + 1) * (1 + 6 * it)) * N = 1178 * N + (nc + 1) * N + (nc + 1) * (6 * it) * N := by ring
  have e4 : (nc + 1) * (16 + 777 * it) = (nc + 1) * 16 + (nc + 1) * (777 * it) := by ring
  rw [e3, e4]
  omega

theorem mainLoopC_ofNil (gen : Work → Cost (List Bit)) (t : Nat) (bw : BitWriter) (s : Nat) :
    mainLoopC gen false (t + 1) (1 + 1 + 1) [REvent.data []] false bw 0 s = (bw, Res.ok (0, s + 1 + 3 + (t + 1) + 1)) := by
  rw [mainLoopC]
  simp only [Bool.false_eq_true, if_false]
  have : (sendLoopC false (t + 1) [REvent.data []] false).run = Res.ok (([], [], true), 3) := rfl
  rw [this]
  simp [flushLoopC, mainLoopC]

/-- The counted run on the empty input. -/
theorem encodeStreamC_nil (dist : Distance) (t : Nat) :
    encodeStreamC dist (Reader.ofBytes []) Writer.empty (t + 1) Strategy.single
      = (⟨[66, 90, 104, 57, 23, 114, 69, 56, 80, 144, 0, 0, 0, 0], []⟩,
          Res.ok ((), t + 1 + (2 * 32 + 104) + 1 + 3 + (t + 1) + 1 + (3 * 80 + 260) + 24)) := by
  unfold encodeStreamC
  dsimp only
  have h1 : (BitWriter.fromWriter Writer.empty).writeBits fileHeader = (⟨[], ⟨[66, 90, 104, 57], []⟩⟩, Res.ok ()) := by
    decide +kernel
  have h2 : writeBitsSteps (BitWriter.fromWriter Writer.empty) fileHeader = 104 := by decide +kernel
  have h3 : fileHeader.length = 32 := by decide +kernel
  rw [h1, h2, h3]
  dsimp only [Res.unwrap, andThen]
  rw [show (Reader.ofBytes []).failTail = false from rfl,
    show (Reader.ofBytes []).events = [REvent.data []] from rfl,
    show eventsSize [REvent.data []] + [REvent.data []].length + 2 = 1 + 1 + 1 from rfl, mainLoopC_ofNil]
  dsimp only
  have h4 : (⟨[], ⟨[66, 90, 104, 57], []⟩⟩ : BitWriter).writeBits (streamFooter 0)
      = (⟨[], ⟨[66, 90, 104, 57, 23, 114, 69, 56, 80, 144, 0, 0, 0, 0], []⟩⟩, Res.ok ()) := by decide +kernel
  have h5 : writeBitsSteps ⟨[], ⟨[66, 90, 104, 57], []⟩⟩ (streamFooter 0) = 260 := by decide +kernel
  have h6 : (streamFooter 0).length = 80 := by decide +kernel
  rw [h4, h5, h6]
  generalize t + 1 + (2 * 32 + 104) + 1 + 3 + (t + 1) + 1 + (3 * 80 + 260) + 24 = K
  simp [BitWriter.finalize]

theorem encodeBytes_nil (dist : Distance) (t : Nat) (ht : 1 ≤ t) :
    encodeBytes dist [] t Strategy.single = Res.ok [66, 90, 104, 57, 23, 114, 69, 56, 80, 144, 0, 0, 0, 0] := by
  unfold encodeBytes
  rw [encodeStream_ofBytes _ _ _ _ _ ht]
  have he : encodeBlocks dist Strategy.single (blocksOf []) Writer.empty
      = encodeBlocks (fun _ _ => 0) Strategy.single [] Writer.empty := by
    rw [blocksOf_nil]
    unfold encodeBlocks
    simp only [List.map_nil, flushLoop]
  have hv : encodeBlocks (fun _ _ => 0) Strategy.single [] Writer.empty
      = (⟨[66, 90, 104, 57, 23, 114, 69, 56, 80, 144, 0, 0, 0, 0], []⟩, Res.ok ()) := by decide +kernel
  rw [he, hv]

theorem nil_arith (t : Nat) : t + 1 + (2 * 32 + 104) + 1 + 3 + (t + 1) + 1 + (3 * 80 + 260) + 24
    ≤ 1200 * ([] : List UInt8).length + (t + 1) * (([] : List UInt8).length / 720000 + 3) + 16100001 := by
  have h : ([] : List UInt8).length = 0 := rfl
  rw [h]
  generalize hK : 16100001 = K
  have : 1000 ≤ K := by omega
  omega

theorem one_arith (x : Nat) : x + 16100000 + 1 ≤ x + 16100001 := Nat.le_refl _

/-- **C80 (stream)**, from a slice into a `Vec<u8>`: `n` bytes take at most `1200 n + t (n / 720000 + 3) + 16100001`
steps, and the counted program returns what the program returns. -/
theorem C80_bytes (dist : Distance) (d : List UInt8) (t : Nat) (ht : 1 ≤ t) :
    ∃ steps w', encodeStreamC dist (Reader.ofBytes d) Writer.empty t Strategy.single = (w', Res.ok ((), steps)) ∧
      encodeBytes dist d t Strategy.single = Res.ok w'.out ∧
      steps ≤ 1200 * d.length + t * (d.length / 720000 + 3) + 16100001 := by
  by_cases hd : d = []
  · subst hd
    obtain ⟨t, rfl⟩ : ∃ k, t = k + 1 := ⟨t - 1, by omega⟩
    refine ⟨_, _, encodeStreamC_nil dist t, encodeBytes_nil dist (t + 1) ht, ?_⟩
    exact nil_arith t
  · obtain ⟨steps, h1, h2⟩ := C80_stream_is_linear dist [REvent.data d]
      (by intro e he; simp at he; exact Or.inr ⟨d, hd, he⟩) Writer.empty t ht
    obtain ⟨bytes, hb⟩ := C39_always_succeeds dist d t ht
    have hb' := hb
    unfold encodeBytes at hb'
    rw [show (⟨[REvent.data d], false⟩ : Reader) = Reader.ofBytes d from rfl] at h1
    have hs : scriptBytes [REvent.data d] = d := by simp [scriptBytes]
    rcases hx : encodeStream dist (Reader.ofBytes d) Writer.empty t Strategy.single with ⟨w', _ | _ | _ | _⟩
    · rw [hx] at h1 hb'
      simp only [Res.ok.injEq] at hb'
      refine ⟨steps, w', h1, by rw [hb, hb'], ?_⟩
      rw [hs, List.length_singleton, Nat.add_right_comm] at h2
      exact le_trans h2 (one_arith _)
    all_goals
      rw [hx] at hb'
      simp at hb'

/-- Counted runs: "banana", read in two pieces with an interruption, with two threads and one table takes 13582 steps;
the hypotheses of `C80_stream_is_linear` hold. -/
example : Steady [REvent.data [98, 97], REvent.intr, REvent.data [110, 97, 110, 97]] ∧
    ((encodeStreamC (fun _ _ => 0) ⟨[REvent.data [98, 97], REvent.intr, REvent.data [110, 97, 110, 97]], false⟩
      Writer.empty 2 Strategy.single).2 >>= fun r => Res.ok r.2) = Res.ok 13582 := by
  refine ⟨?_, by decide +kernel⟩
  intro e he
  simp only [List.mem_cons, List.not_mem_nil, or_false] at he
  rcases he with rfl | rfl | rfl
  · exact Or.inr ⟨_, by simp, rfl⟩
  · exact Or.inl rfl
  · exact Or.inr ⟨_, by simp, rfl⟩

end Ribzip2
