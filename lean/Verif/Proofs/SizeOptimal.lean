import Verif.Proofs.NearOptimal
import Verif.Proofs.Options
import Verif.Proofs.Size
/- The code of the single-table strategy is nearly optimal; what follows for the size. -/
namespace Ribzip2
open Spec

def countList (n : Nat) (g : List Nat) : List Nat := (List.range n).map fun s => g.count s

theorem countList_snoc (n : Nat) (g : List Nat) (s : Nat) (hs : s < n) :
    (countList n g).set s ((countList n g)[s]'(by simpa [countList] using hs) + 1) = countList n (g ++ [s]) := by
  apply List.ext_getElem (by simp [countList])
  intro i h1 h2
  rw [List.getElem_set]
  split
  · rename_i h; subst h; simp [countList]
  · rename_i h; simp [countList, List.count_append, List.count_singleton, h]

theorem single_counts (n : Nat) (syms : List ZleSymbol) (hs : ∀ s ∈ syms, symbolIndex s ≤ n) (pre : List Nat)
    (m m' : SingleMap) (hm : m.frequencies = countList (n + 1) pre)
    (h : reportAll singleReporter m syms = Res.ok m') :
    m'.frequencies = countList (n + 1) (pre ++ syms.map symbolIndex) := by
  induction syms generalizing m pre with
  | nil =>
    simp only [reportAll, Res.ok.injEq] at h
    subst h
    simpa using hm
  | cons s syms ih =>
    have hlt : symbolIndex s < (countList (n + 1) pre).length := by
      have := hs s (by simp)
      simp [countList]; omega
    simp only [reportAll, singleReporter, SingleMap.report, hm, idx, List.getElem?_eq_getElem hlt,
      Res.ofOption_some, Res.ok_bind, setIdx, if_pos hlt, Res.pure_eq] at h
    rw [countList_snoc _ _ _ (by have := hs s (by simp); omega)] at h
    have := ih (fun x hx => hs x (by simp [hx])) (pre ++ [symbolIndex s]) _ rfl h
    simpa using this

theorem single_zle_counts (dist : Distance) (n : Nat) (hn : 1 ≤ n) (d : List UInt8) (hd : ∀ i ∈ d, i.toNat < n)
    (hlen : d.length + 1 < 2 ^ 20) (f : List Nat) (sel : List UInt8)
    (h : zleWithStrategy dist Strategy.single d n = Res.ok (zleEncode 0 d, ⟨[f, f], sel⟩)) :
    f = countList (n + 1) ((zleEncode 0 d).map symbolIndex ++ [0]) := by
  have hs : ∀ s ∈ zleEncode 0 d ++ [ZleSymbol.runA], symbolIndex s ≤ n := by
    intro s hs
    rcases List.mem_append.1 hs with hs | hs
    · exact (zleEncode_symOk n hn d hd s hs).1
    · simp at hs; subst hs; simp [symbolIndex]
  obtain ⟨m, h1, h2, h3⟩ := single_reportAll n _ hs (SingleMap.create n) (by simp [SingleMap.create])
  have hc := single_counts n _ hs [] _ m (by simp only [SingleMap.create, countList, List.count_nil]; simp) h1
  simp only [zleWithStrategy, zleTransform_eq, h1, Res.ok_bind] at h
  simp only [singleReporter, SingleMap.finalize, Res.ok_bind,
    Res.pure_eq, Res.ok.injEq, Prod.mk.injEq, ReportedSymbols.mk.injEq, List.cons.injEq, true_and] at h
  rw [← h.1.1, hc]
  simp [symbolIndex]

/-- What the single-table strategy writes for a block. -/
theorem single_block (dist : Distance) (b : List UInt8) (hne : b ≠ []) (hlen : (rle1Encode b).length + 1 < 2 ^ 20) :
    ∃ p : BlockParts, p.OneTable b ∧ p.tableBits = (p.tables.map fun ls => encodeCodeTable (canonTable ls)) ∧
      generateBlockData dist Strategy.single (crc32 b) (rle1Encode b) = Res.ok (blockFrame b p.body) := by
  have hrne : rle1Encode b ≠ [] := rle1Encode_ne_nil b hne
  generalize hrle : rle1Encode b = rle at *
  obtain ⟨last, ptr, b1, b2, b3⟩ := C30_bwt_never_fails rle hrne
  obtain ⟨enc, m1, m2, m3, m4⟩ := mtf_spec last
  have hlast : last.length = rle.length := b2.length_eq
  have hlne : last ≠ [] := by intro h; rw [h] at hlast; exact hrne (List.length_eq_zero_iff.1 hlast.symm)
  have hun : 1 ≤ (usedBytes last).length := by
    obtain ⟨x, hx⟩ := List.exists_mem_of_ne_nil last hlne
    exact List.length_pos_of_mem (mem_usedBytes.2 hx)
  have hun2 := usedBytes_length last
  have hz := zleEncode_symOk _ hun enc m4
  have hzl := zleEncode_length 0 enc
  obtain ⟨f, f1, f2⟩ := single_zle dist (usedBytes last).length hun enc m4 (by omega)
  have hf := single_zle_counts dist _ hun enc m4 (by omega) f _ f2
  obtain ⟨tables, pos, t1, t2, t3⟩ := emitBlock_ok (crc32 b) ptr (usedBytes last) (zleEncode 0 enc)
    ⟨[f, f], List.replicate (((zleEncode 0 enc).length + 50) / 50) 0⟩ hun hun2
    (by
      intro g hg
      simp only [List.mem_cons, List.not_mem_nil, or_false] at hg
      rcases hg with rfl | rfl <;> exact f1)
    (by intro s hs; rw [List.eq_of_mem_replicate hs]; simp)
    (by simp; omega) (by simp; omega) hz
  have hnear := tablesMade_near _ hun hun2 _ tables (by
      intro g hg
      simp only [List.mem_cons, List.not_mem_nil, or_false] at hg
      rcases hg with rfl | rfl <;> exact f1) t1
  have hmade := t1.made
  obtain ⟨ls, hls⟩ : ∃ ls, tables = [ls, ls] := by
    have hc := t1.count
    match tables, hc with
    | [ls, ls'], _ =>
      refine ⟨ls, ?_⟩
      have hl1 := (t1.lengths ls (by simp)).1
      have hl2 := (t1.lengths ls' (by simp)).1
      simp only [codeTables] at hmade
      obtain ⟨T, c1, c2⟩ := bind_eq_ok hmade
      obtain ⟨C, c3, c4⟩ := bind_eq_ok c2
      simp only [c1, Res.ok_bind, c3] at c4
      simp only [Res.pure_eq, Res.ok_bind, Res.ok.injEq, List.map_cons, List.map_nil, List.cons.injEq] at c4
      obtain ⟨rfl, h2, -⟩ := c4
      have hll : ls' = ls := by
        apply List.ext_getElem (by omega)
        intro i h1 h2'
        have e := congrArg (fun l => (l.map fun e : CanonicalEntry => e.code.length)[i]?) h2
        simp [canonTable, h1, h2', codeBits_length, len] at e
        exact e.symm
      rw [hll]
  have hsz : (pos.map UInt8.toNat).flatMap unary
      = List.replicate (List.replicate (((zleEncode 0 enc).length + 50) / 50) (0 : UInt8)).length false :=
    unary_zeros pos _ (fun s hs => List.eq_of_mem_replicate hs) t2
  rw [List.length_replicate] at hsz
  refine ⟨⟨rle, last, ptr, usedBytes last, (zleEncode 0 enc).map symbolIndex, tables,
    tables.map fun ls => encodeCodeTable (canonTable ls), List.replicate (((zleEncode 0 enc).length + 50) / 50) 0,
    List.replicate (((zleEncode 0 enc).length + 50) / 50) false⟩,
    ⟨hrle.symm, usedBytes_pairwise last, ?_, ?_, ?_, ?_, ?_, tables_transmitted _ tables t1.lengths, ?_⟩, rfl, ?_⟩
  · intro x hx
    exact b2.mem_iff.1 (mem_usedBytes.1 hx)
  · intro s hs
    obtain ⟨z, hz', rfl⟩ := List.mem_map.1 hs
    have := (hz z hz').1
    simp only [BlockParts.eob]
    omega
  · simp only [List.length_map]; omega
  · simp
  · simp
  · refine ⟨ls, hls, t1.complete ls (by rw [hls]; simp), ?_⟩
    rw [hls] at hnear
    cases hnear with
    | cons a _ =>
      rw [hf] at a
      exact a
  · have hc := t1.count
    simp only [generateBlockData, b1, Res.ok_bind, m1, f2, t3, hsz]
    rw [convertToCodePadToNBits_eq _ 3 (by simp), crc32_eq_spec]
    simp only [blockFrame, BlockParts.body, BlockParts.eob, hc, List.length_cons, List.length_nil, List.length_replicate,
      List.map_replicate]
    simp only [List.append_assoc]
    rfl

/-- The blocks of a file written with the single-table strategy. -/
theorem encodeBytes_oneTable (dist : Distance) (d : List UInt8) (t : Nat) (ht : 1 ≤ t) :
    ∃ (bytes : List UInt8) (blocks : List (List UInt8 × List Bool)),
      encodeBytes dist d t Strategy.single = Res.ok bytes ∧
      blocks.map (fun b => b.1) = blocksOf d ∧
      (∀ b ∈ blocks, ∃ p : BlockParts, p.OneTable b.1 ∧
        p.tableBits = (p.tables.map fun ls => encodeCodeTable (canonTable ls)) ∧ b.2 = p.body) ∧
      PaddedTo8 (streamHeader 0x39 ++ blockFrames blocks ++ footerMagic
        ++ natToBits 32 (streamCrc blocks).toNat) (bytesBits bytes) := by
  have hgen : ∀ b ∈ blocksOf d, ∃ p : BlockParts, p.OneTable b ∧
      p.tableBits = (p.tables.map fun ls => encodeCodeTable (canonTable ls)) ∧
      generateBlockData dist Strategy.single (crc32 b) (rle1Encode b) = Res.ok (blockFrame b p.body) := by
    intro b hb
    have h1 := blocksOf_size d b hb
    exact single_block dist b (blocksOf_ne_nil d b hb) (by omega)
  obtain ⟨w, hw⟩ := encodeBlocks_good_ok dist Strategy.single (blocksOf d) (by
    intro b hb
    obtain ⟨p, -, -, h⟩ := hgen b hb
    exact ⟨_, h⟩)
  obtain ⟨outs, o1, o2⟩ := encodeBlocks_good dist Strategy.single _ w hw
  obtain ⟨blocks, b1, b2, b3, b4⟩ := streamBits_frames dist Strategy.single _ outs o1
  refine ⟨w.out, blocks, encodeBytes_ofBytes dist d t ht _ w hw, b1, ?_, ?_⟩
  · intro b hb
    obtain ⟨p, h1, h2, h2'⟩ := hgen b.1 (by rw [← b1]; exact List.mem_map.2 ⟨b, hb, rfl⟩)
    have h3 := b4 b hb
    rw [h2', Res.ok.injEq] at h3
    simp only [blockFrame] at h3
    exact ⟨p, h1, h2, (List.append_cancel_left h3).symm⟩
  · rw [streamBits, footer_eq, fileHeader_eq, ← b2, ← b3, ← List.append_assoc] at o2
    exact o2

/-! ### Size -/

theorem payload_first (tables : List (List Nat)) (ls : List Nat) (n : Nat) (h0 : tables.getD 0 [] = ls) (k : Nat)
    (syms : List Nat) :
    (payloadBits tables (List.replicate n 0) k syms).length = (syms.map fun s => len ls s).sum := by
  induction syms generalizing k with
  | nil => rfl
  | cons s syms ih =>
    have : (List.replicate n 0).getD (k / 50) 0 = 0 := by
      rw [List.getD_eq_getElem?_getD, List.getElem?_replicate]
      split <;> simp
    rw [payloadBits, List.length_append, ih, this, h0, codeBits_length, List.map_cons, List.sum_cons]

theorem sum_by_counts (n : Nat) (g : Nat → Nat) (syms : List Nat) (hs : ∀ s ∈ syms, s < n) :
    (syms.map g).sum = ((List.range n).map fun i => syms.count i * g i).sum := by
  induction syms with
  | nil => simp
  | cons s syms ih =>
    have h1 := ih fun x hx => hs x (by simp [hx])
    have h2 := hs s (by simp)
    rw [List.map_cons, List.sum_cons, h1]
    have key : ∀ l : List Nat, l.Nodup → s ∈ l → (l.map fun i => (s :: syms).count i * g i).sum
        = g s + (l.map fun i => syms.count i * g i).sum := by
      intro l
      induction l with
      | nil => intro _ h; simp at h
      | cons a l ihl =>
        intro hnd hm
        rw [List.nodup_cons] at hnd
        rw [List.map_cons, List.sum_cons, List.map_cons, List.sum_cons]
        rcases List.mem_cons.1 hm with rfl | hm
        · have : (l.map fun i => (s :: syms).count i * g i) = l.map fun i => syms.count i * g i := by
            refine List.map_congr_left ?_
            intro i hi
            have : s ≠ i := fun e => hnd.1 (e ▸ hi)
            simp [this]
          rw [this, List.count_cons_self, Nat.add_mul]
          omega
        · have hne : s ≠ a := fun e => hnd.1 (e ▸ hm)
          rw [ihl hnd.2 hm, List.count_cons_of_ne hne]
          omega
    rw [key _ List.nodup_range (by simpa using h2)]

theorem sum_range_twice (m : Nat) : 2 * (List.range m).sum = m * (m - 1) := by
  induction m with
  | zero => rfl
  | succ m ih =>
    rw [List.range_succ, List.sum_append, List.sum_singleton, Nat.mul_add, ih]
    cases m with
    | zero => rfl
    | succ m =>
      simp only [Nat.add_sub_cancel]
      ring

theorem wl_snoc_zero (n : Nat) (c : Nat → Nat) (ls : List Nat) (h : ls.length = n + 1) :
    weightedLength ((List.range n).map c ++ [0]) ls = ((List.range n).map fun s => c s * len ls s).sum := by
  have e1 : ls = (List.range n).map (fun s => len ls s) ++ [len ls n] := by
    have := list_eq_map_range ls
    rw [h, List.range_succ, List.map_append] at this
    exact this
  have e2 : weightedLength ((List.range n).map c ++ [0]) ls
      = weightedLength ((List.range n).map c ++ [0]) ((List.range n).map (fun s => len ls s) ++ [len ls n]) :=
    congrArg _ e1
  rw [e2, ← wl_map]
  unfold weightedLength
  rw [List.zipWith_append (by simp), List.sum_append]
  simp

theorem wl_replicate (ws : List Nat) (L m : Nat) (h : ws.length = m) : weightedLength ws (List.replicate m L) = L * ws.sum := by
  subst h
  unfold weightedLength
  induction ws with
  | nil => rfl
  | cons a ws ih =>
    rw [List.length_cons, List.replicate_succ, List.zipWith_cons_cons, List.sum_cons, ih, List.sum_cons, Nat.mul_add,
      Nat.mul_comm a L]

theorem zipWith_add_sum (a b : List Nat) (h : a.length = b.length) : (List.zipWith (· + ·) a b).sum = a.sum + b.sum := by
  induction a generalizing b with
  | nil => cases b <;> simp_all
  | cons x a ih =>
    cases b with
    | nil => simp at h
    | cons y b =>
      rw [List.zipWith_cons_cons, List.sum_cons, List.sum_cons, List.sum_cons, ih b (by simpa using h)]
      omega

/-- The code lengths against a code of `L` bits for every symbol. -/
theorem nearOptimal_flat (freqs ls : List Nat) (h : NearOptimal freqs ls) (L : Nat) (hL : L ≤ 17)
    (hm : freqs.length ≤ 2 ^ L) :
    2 * weightedLength freqs ls ≤ L * (2 * freqs.sum + freqs.length * (freqs.length - 1)) := by
  obtain ⟨-, extra, he, ho⟩ := h
  have hel : extra.length = freqs.length := by simpa using he.length_eq
  have h1 := ho (List.replicate freqs.length L) (by simp) ⟨by intro l hl; rw [List.eq_of_mem_replicate hl]; exact hL, by
    unfold kraft
    rw [List.map_replicate, List.sum_replicate_nat]
    calc freqs.length * 2 ^ (17 - L) ≤ 2 ^ L * 2 ^ (17 - L) := Nat.mul_le_mul_right _ hm
      _ = 2 ^ 17 := by rw [← Nat.pow_add]; congr 1; omega⟩
  rw [wl_replicate _ _ _ (by simp [hel]), zipWith_add_sum _ _ hel.symm, he.sum_eq] at h1
  have h2 := sum_range_twice freqs.length
  calc 2 * weightedLength freqs ls ≤ 2 * (L * (freqs.sum + (List.range freqs.length).sum)) := by omega
    _ = L * (2 * freqs.sum + freqs.length * (freqs.length - 1)) := by rw [← h2]; ring_nf

theorem countList_sum (n : Nat) (syms : List Nat) (hs : ∀ s ∈ syms, s < n) : (countList n syms).sum = syms.length := by
  have := sum_by_counts n (fun _ => 1) syms hs
  simp only [Nat.mul_one] at this
  rw [countList, ← this]
  simp

/-- The coded symbols of a block take at most `L` bits each, if the symbols can be told apart by `L` bits, and some
bits that do not depend on the size of the block. -/
theorem oneTable_payload (p : BlockParts) (b : List UInt8) (h : p.OneTable b) (L : Nat) (hL : L ≤ 17)
    (hm : p.used.length + 2 ≤ 2 ^ L) :
    2 * (payloadBits p.tables p.sel 0 (p.syms ++ [p.eob])).length
      ≤ L * (2 * (p.syms.length + 1) + (p.used.length + 2) * (p.used.length + 1)) + 34 := by
  obtain ⟨ls, t1, t2, t3⟩ := h.tables
  have hlen : ls.length = p.used.length + 2 := by simpa using t3.1
  rw [h.sel, payload_first p.tables ls _ (by rw [t1]; rfl), List.map_append, List.sum_append]
  have hs : ∀ s ∈ p.syms, s < p.used.length + 1 := h.symbols
  have hs0 : ∀ s ∈ p.syms ++ [0], s < p.used.length + 1 := by
    intro s hs'
    rcases List.mem_append.1 hs' with h' | h'
    · exact hs s h'
    · simp at h'; omega
  have he : len ls p.eob ≤ 17 := by
    rw [len, List.getD_eq_getElem?_getD]
    rcases hl : ls[p.eob]? with _ | l
    · simp
    · exact t2.1 l (List.mem_of_getElem? hl)
  have hf := nearOptimal_flat _ ls t3 L hL (by simpa using hm)
  have hsum := countList_sum (p.used.length + 1) (p.syms ++ [0]) hs0
  unfold countList at hsum
  have hw : (p.syms.map fun s => len ls s).sum
      ≤ weightedLength (((List.range (p.used.length + 1)).map fun s => (p.syms ++ [0]).count s) ++ [0]) ls := by
    have h1 := sum_by_counts (p.used.length + 1) (fun s => len ls s) (p.syms ++ [0]) hs0
    have h2 : weightedLength (((List.range (p.used.length + 1)).map fun s => (p.syms ++ [0]).count s) ++ [0]) ls
        = ((List.range (p.used.length + 1)).map fun s => (p.syms ++ [0]).count s * len ls s).sum := by
      exact wl_snoc_zero (p.used.length + 1) (fun s => (p.syms ++ [0]).count s) ls hlen
    rw [h2, ← h1, List.map_append, List.sum_append]
    omega
  have hfl : (((List.range (p.used.length + 1)).map fun s => (p.syms ++ [0]).count s) ++ [0]).length = p.used.length + 2 := by
    simp
  rw [hfl, List.sum_append, hsum] at hf
  simp only [List.length_append, List.length_singleton, List.sum_singleton, Nat.add_zero] at hf
  simp only [List.map_cons, List.map_nil, List.sum_cons, List.sum_nil]
  rw [show p.used.length + 2 - 1 = p.used.length + 1 by omega] at hf
  omega

/-- The size of one block. -/
theorem oneTable_length (p : BlockParts) (b : List UInt8) (h : p.OneTable b)
    (hbits : p.tableBits = (p.tables.map fun ls => encodeCodeTable (canonTable ls))) (L k : Nat) (hL : L ≤ 17)
    (hk : p.used.length ≤ k) (hm : k + 2 ≤ 2 ^ L) :
    100 * (blockFrame b p.body).length
      ≤ (100 * L + 2) * (rle1Encode b).length + 50 * (848 + 132 * (k + 2) + L * (2 + (k + 2) * (k + 1))) := by
  have hpay := oneTable_payload p b h L hL (by omega)
  obtain ⟨ls, t1, t2, t3⟩ := h.tables
  have hlen : ls.length = p.used.length + 2 := by simpa using t3.1
  have hpos : ∀ l ∈ ls, 1 ≤ l := one_le_of_kraftEq 17 ls (by omega) t2
  have hmap := symbolMapBits_length_le p.used
  have htab : p.tableBits.flatten.length ≤ 2 * (5 + 33 * (k + 2)) := by
    rw [hbits, t1]
    have h1 := encodeCodeTable_length ls 17 (by omega) fun l hl => ⟨hpos l hl, t2.1 l hl⟩
    simp only [List.map_cons, List.map_nil, List.flatten_cons, List.flatten_nil, List.append_nil, List.length_append]
    omega
  have hm' : blockMagic.length = 48 := by rw [blockMagic, bytesBits_length]; rfl
  have hfew := h.few
  rw [h.rle] at hfew
  have hprod : (p.used.length + 2) * (p.used.length + 1) ≤ (k + 2) * (k + 1) := Nat.mul_le_mul (by omega) (by omega)
  have hpay2 : L * (2 * (p.syms.length + 1) + (p.used.length + 2) * (p.used.length + 1))
      ≤ L * (2 * (rle1Encode b).length + (2 + (k + 2) * (k + 1))) := Nat.mul_le_mul_left _ (by omega)
  rw [Nat.mul_add L (2 * (rle1Encode b).length) (2 + (k + 2) * (k + 1))] at hpay2
  have e1 : L * (2 * (rle1Encode b).length) = 2 * (L * (rle1Encode b).length) := by rw [Nat.mul_left_comm]
  have e2 : (100 * L + 2) * (rle1Encode b).length = 100 * (L * (rle1Encode b).length) + 2 * (rle1Encode b).length := by
    rw [Nat.add_mul, Nat.mul_assoc]
  rw [e1] at hpay2
  rw [e2]
  have hsel : p.selBits.length = (p.syms.length + 50) / 50 := by rw [h.selBits, List.length_replicate]
  have htl : p.tables.length = 2 := by rw [t1]; rfl
  generalize L * (2 + (k + 2) * (k + 1)) = C at *
  generalize L * (rle1Encode b).length = R at *
  simp only [blockFrame, BlockParts.body, List.length_append, natToBits_length, List.length_cons, List.length_nil, hm',
    hsel] at *
  omega

end Ribzip2
