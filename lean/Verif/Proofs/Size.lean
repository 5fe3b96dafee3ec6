import Verif.Proofs.RoundTrip
/- The size of what the encoder writes with the single-table strategy. -/
namespace Ribzip2
open Spec

/-! ### Number of blocks -/

theorem cut_large (d : List UInt8) : min 720000 d.length ≤ (cut d).1 := by
  by_cases hd : d = []
  · subst hd; simp
  have hpos := List.length_pos_iff.2 hd
  have h0 : (rle1Encode (d.take 0)).length < 900000 := by simp [rle1Encode, runs]
  have h00 : (rleAt d 0).data.length = 0 := rfl
  rw [cut, show d.length + 2 = d.length + 1 + 1 from rfl, cutLoop, if_pos h0, if_neg (by omega), h00]
  exact Nat.le_trans (by omega) (cutLoop_ge _ _ _)

/-- Every block but the last holds at least 720000 bytes. -/
theorem blocksOf_length (d : List UInt8) : 720000 * (blocksOf d).length ≤ d.length + 720000 := by
  induction d using blocks_induction with
  | h0 => simp [blocksOf_nil]
  | h1 d hd ih =>
    rw [blocksOf_cons d hd, List.length_cons]
    have h1 := cut_large d
    have h2 := (cut_le d).1
    rw [List.length_drop] at ih
    by_cases h : d.length ≤ 720000
    · rw [show (cut d).1 = d.length by omega, List.drop_length, blocksOf_nil]
      simp
    · omega

/-! ### Parts of a block -/

theorem deltaLoop_length (M : Nat) (last : UInt8) (ls : List UInt8) (hlast : 1 ≤ last.toNat ∧ last.toNat ≤ M)
    (h : ∀ l ∈ ls, 1 ≤ l.toNat ∧ l.toNat ≤ M) :
    ((deltaLoop last ls).flatMap deltaBits).length ≤ (2 * M - 1) * ls.length := by
  induction ls generalizing last with
  | nil => simp [deltaLoop]
  | cons c ls ih =>
    have hc := h c (by simp)
    have h1 := ih c hc fun l hl => h l (by simp [hl])
    have hrep : ∀ (k : Nat) (s : DeltaSymbol), (deltaBits s).length = 2 →
        ((List.replicate k s).flatMap deltaBits).length = 2 * k := by
      intro k s hs
      induction k with
      | zero => rfl
      | succ k ih => rw [List.replicate_succ, List.flatMap_cons, List.length_append, ih, hs]; omega
    have h2 : (((if (last.toNat : Int) - c.toNat > 0 then
        List.replicate ((last.toNat : Int) - c.toNat).natAbs DeltaSymbol.decrease
        else if (last.toNat : Int) - c.toNat < 0 then
          List.replicate ((last.toNat : Int) - c.toNat).natAbs DeltaSymbol.increase
        else []) : List DeltaSymbol).flatMap deltaBits).length ≤ 2 * M - 2 := by
      split
      · rw [hrep _ _ rfl]; omega
      · split
        · rw [hrep _ _ rfl]; omega
        · simp
    simp only [deltaLoop, List.flatMap_append, List.length_append, List.length_cons]
    have h3 : ([DeltaSymbol.stop].flatMap deltaBits).length = 1 := rfl
    rw [h3, Nat.mul_add]
    omega

theorem encodeBitLengths_length (ls : List UInt8) (M : Nat) (hM : M ≤ 20)
    (h : ∀ l ∈ ls, 1 ≤ l.toNat ∧ l.toNat ≤ M) :
    (encodeBitLengths ls).length ≤ 5 + (2 * M - 1) * ls.length := by
  match ls, h with
  | [], _ => simp [encodeBitLengths, encodeDelta]
  | l :: ls, h =>
    have h0 := h l (by simp)
    have h1 := deltaLoop_length M l ls h0 fun x hx => h x (by simp [hx])
    simp only [encodeBitLengths, encodeDelta, List.length_append, List.flatMap_cons, List.length_cons]
    rw [convertToCodePadToNBits_eq _ 5 (by omega), natToBits_length, Nat.mul_add]
    have h3 : (deltaBits DeltaSymbol.stop).length = 1 := rfl
    rw [h3]
    omega

theorem encodeCodeTable_length (ls : List Nat) (M : Nat) (hM : M ≤ 20) (h : ∀ l ∈ ls, 1 ≤ l ∧ l ≤ M) :
    (encodeCodeTable (canonTable ls)).length ≤ 5 + (2 * M - 1) * ls.length := by
  rw [encodeCodeTable, canonTable_lengths]
  have := encodeBitLengths_length (ls.map UInt8.ofNat) M hM (by
    intro x hx
    obtain ⟨y, hy, rfl⟩ := List.mem_map.1 hx
    have := h y hy
    rw [UInt8.toNat_ofNat_of_lt' (by show y < 256; omega)]
    exact this)
  simpa using this

theorem flatMap_length_le {α β : Type} (f : α → List β) (B : Nat) (l : List α) (h : ∀ x ∈ l, (f x).length ≤ B) :
    (l.flatMap f).length ≤ B * l.length := by
  induction l with
  | nil => simp
  | cons x l ih =>
    rw [List.flatMap_cons, List.length_append, List.length_cons, Nat.mul_add]
    have := h x (by simp)
    have := ih fun y hy => h y (by simp [hy])
    omega

theorem symbolMapBits_length_le (U : List UInt8) : (symbolMapBits U).length ≤ 272 := by
  have h := flatMap_length_le (fun r => (List.range 16).map fun j => decide (UInt8.ofNat (16 * r + j) ∈ U)) 16
    ((List.range 16).filter (rangeUsed U)) (by intro x _; simp)
  have h2 := List.length_filter_le (rangeUsed U) (List.range 16)
  rw [symbolMapBits, List.length_append]
  simp only [List.length_map, List.length_range] at *
  omega

theorem payloadBits_length_le (tables : List (List Nat)) (M : Nat) (h : ∀ ls ∈ tables, ∀ l ∈ ls, l ≤ M) (sel : List Nat)
    (k : Nat) (syms : List Nat) : (payloadBits tables sel k syms).length ≤ M * syms.length := by
  induction syms generalizing k with
  | nil => simp [payloadBits]
  | cons s syms ih =>
    rw [payloadBits, List.length_append, codeBits_length, List.length_cons, Nat.mul_add]
    have h1 := ih (k + 1)
    have h2 : len (tables.getD (sel.getD (k / 50) 0) []) s ≤ M := by
      generalize sel.getD (k / 50) 0 = i
      rw [len, List.getD_eq_getElem?_getD, List.getD_eq_getElem?_getD]
      rcases hi : tables[i]? with _ | ls
      · simp
      · rw [Option.getD_some]
        rcases hl : ls[s]? with _ | l
        · simp
        · exact h ls (List.mem_of_getElem? hi) l (List.mem_of_getElem? hl)
    omega

theorem selectorBits_length_le {n : Nat} {sel : List Nat} {bits : List Bool} (h : SelectorBits n sel bits) :
    bits.length ≤ n * sel.length := by
  obtain ⟨pos, h1, rfl⟩ := h
  rw [mtfDecode_length _ _ _ h1]
  refine flatMap_length_le unary n pos fun i hi => ?_
  have := mtfDecode_pos_lt _ _ _ h1 i hi
  simp only [List.length_range] at this
  simp [unary]
  omega

/-- The size of one block with two tables. -/
theorem written_length (b : List UInt8) (p : BlockParts) (h : WrittenBlock 2 b p) :
    200 * (blockFrame b p.body).length ≤ 3490400 + 4260 * b.length := by
  have hl := rle1Encode_length b
  have hs := h.short
  have hu := used_length_le h.readable.used
  have hlen17 : ∀ ls ∈ p.tables, ∀ l ∈ ls, l ≤ 17 := fun ls hls => (h.complete ls hls).1
  have htab : p.tableBits.flatten.length ≤ 8519 * 2 := by
    rw [h.tableBits, ← List.flatMap_def, ← h.numTables]
    refine flatMap_length_le _ 8519 p.tables fun ls hls => ?_
    have h1 := encodeCodeTable_length ls 17 (by omega) fun l hl =>
      ⟨(h.readable.tablesOk ls hls).2.2 l hl, hlen17 ls hls l hl⟩
    rw [(h.readable.lengths ls hls).1] at h1
    omega
  have hsel := selectorBits_length_le h.readable.selected
  have hex := h.readable.exact
  have hmap := symbolMapBits_length_le p.used
  have hpay := payloadBits_length_le p.tables 17 hlen17 p.sel 0 (p.syms ++ [p.eob])
  rw [h.rle] at hs
  rw [h.numTables] at hsel
  have hm : blockMagic.length = 48 := by rw [blockMagic, bytesBits_length]; rfl
  simp only [blockFrame, BlockParts.body, List.length_append, natToBits_length, List.length_cons,
    List.length_nil, hm] at *
  omega

theorem frames_length_le (blocks : List (List UInt8 × List Bool))
    (h : ∀ b ∈ blocks, ∃ p, WrittenBlock 2 b.1 p ∧ b.2 = p.body) :
    200 * (blockFrames blocks).length
      ≤ 3490400 * blocks.length + 4260 * (blocks.map (fun b => b.1)).flatten.length := by
  induction blocks with
  | nil => simp [blockFrames]
  | cons b blocks ih =>
    obtain ⟨p, h1, h2⟩ := h b (by simp)
    have h3 := written_length b.1 p h1
    have h4 := ih fun x hx => h x (by simp [hx])
    simp only [blockFrames, List.flatMap_cons, List.length_append, List.map_cons, List.flatten_cons,
      List.length_cons, h2] at *
    omega

end Ribzip2
