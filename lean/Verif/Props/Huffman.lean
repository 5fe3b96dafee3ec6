import Verif.Proofs.Codes
import Verif.Proofs.Decoder
import Verif.Proofs.HuffmanLengths
import Verif.Proofs.Tree
/- Properties C23, C24, C25: Huffman code lengths and canonical codes. -/
namespace Ribzip2
open Spec

/-- The code table the decoder builds from transmitted code lengths (block_decoder.rs:39-42). -/
def decoderTable (ls : List UInt8) : Res (List CanonicalEntry) := do
  let w ← fromWeights ls
  canonicalize w

/-- The symbol number `i` of an alphabet of `n` symbols stands for: RUNA, RUNB, the MTF positions
`1, 2, …`, and last the end of the block. -/
def symbolName (n i : Nat) : HSym :=
  if i + 1 = n then HSym.eob
  else match i with
    | 0 => HSym.normal ZleSymbol.runA
    | 1 => HSym.normal ZleSymbol.runB
    | j + 2 => HSym.normal (ZleSymbol.number (UInt8.ofNat (j + 1)))

theorem symbolName_eq (n i : Nat) : symbolName n i = symbolAt n i := by
  unfold symbolName symbolAt
  split
  · rfl
  · match i with
    | 0 => rfl
    | 1 => rfl
    | i + 2 => rfl

/-- **C25**, codes: from every list of 3 to 258 code lengths that satisfies Kraft's inequality the
decoder builds, without panic, the table of the standard canonical codes in the order of the
symbols. -/
theorem C25_canonical_codes (ls : List UInt8) (h3 : 3 ≤ ls.length) (h258 : ls.length ≤ 258) (L : Nat)
    (hL : L ≤ 63) (hk : KraftLe L (ls.map UInt8.toNat)) :
    decoderTable ls = Res.ok ((List.range ls.length).map fun i =>
      ⟨codeBits (ls.map UInt8.toNat) i, symbolName ls.length i⟩) := by
  unfold decoderTable
  rw [fromWeights_eq ls h3 h258, Res.ok_bind,
    canonicalize_spec L hL _ _ (List.Perm.refl _) (by simpa using h258)
      (by intro e; rw [List.map_eq_nil_iff] at e; rw [e] at h3; simp at h3) hk]
  simp only [canonTable, List.length_map, symbolName_eq]

/-- **C25**, prefix-freeness: no code is a prefix of another one. -/
theorem C25_codes_prefix_free (ls : List Nat) (L : Nat) (hk : KraftLe L ls) (i j : Nat)
    (hi : i < ls.length) (hj : j < ls.length) (hij : i ≠ j) :
    (codeBits ls i).length = ls.getD i 0 ∧ ¬ codeBits ls i <+: codeBits ls j :=
  ⟨by rw [codeBits_length]; rfl, codeBits_prefixFree L ls hk i j hi hj hij⟩

/-- **C25**, decoding of a group of `m` symbols none of which ends the block. -/
theorem C25_full_group_decodes (ls : List UInt8) (h3 : 3 ≤ ls.length) (h258 : ls.length ≤ 258) (L : Nat)
    (hL : L ≤ 63) (hk : KraftLe L (ls.map UInt8.toNat)) (hpos : ∀ l ∈ ls, 1 ≤ l.toNat)
    (table : List CanonicalEntry) (ht : decoderTable ls = Res.ok table)
    (syms : List Nat) (hne : syms ≠ []) (hs : ∀ i ∈ syms, i < ls.length - 1)
    (br : BitReader) (rest : List Bit)
    (hbr : br.bits = syms.flatMap (codeBits (ls.map UInt8.toNat)) ++ rest) :
    ∃ out br', readSymbols br table syms.length = Res.ok (out, br') ∧ br'.bits = rest ∧
      out.map HSym.normal = syms.map (symbolName ls.length) := by
  rw [C25_canonical_codes ls h3 h258 L hL hk] at ht
  have ht' : canonTable (ls.map UInt8.toNat) = table := by
    injection ht with ht
    rw [← ht]
    simp only [canonTable, List.length_map, symbolName_eq]
  subst ht'
  have h := absR_readSymbols (canonTable (ls.map UInt8.toNat)) syms.length br
  rw [hbr, pSymbols_full L _ hk (by simpa using hpos) syms
    (by intro i hi; have := hs i hi; simp; omega) hne] at h
  obtain ⟨br', g1, g2⟩ := absR_eq_ok h
  refine ⟨_, br', g1, g2, ?_⟩
  rw [List.map_map]
  apply List.map_congr_left
  intro i hi
  have := hs i hi
  rw [symbolName_eq, symbolAt, if_neg (by omega)]
  rfl

/-- **C25**, decoding of a last group: fewer than `m` symbols and then the end of the block. -/
theorem C25_last_group_decodes (ls : List UInt8) (h3 : 3 ≤ ls.length) (h258 : ls.length ≤ 258) (L : Nat)
    (hL : L ≤ 63) (hk : KraftLe L (ls.map UInt8.toNat)) (hpos : ∀ l ∈ ls, 1 ≤ l.toNat)
    (table : List CanonicalEntry) (ht : decoderTable ls = Res.ok table)
    (syms : List Nat) (hs : ∀ i ∈ syms, i < ls.length - 1) (m : Nat) (hm : syms.length < m)
    (br : BitReader) (rest : List Bit)
    (hbr : br.bits = syms.flatMap (codeBits (ls.map UInt8.toNat)) ++
      codeBits (ls.map UInt8.toNat) (ls.length - 1) ++ rest) :
    ∃ out br', readSymbols br table m = Res.ok (out, br') ∧ br'.bits = rest ∧
      out.map HSym.normal = syms.map (symbolName ls.length) := by
  rw [C25_canonical_codes ls h3 h258 L hL hk] at ht
  have ht' : canonTable (ls.map UInt8.toNat) = table := by
    injection ht with ht
    rw [← ht]
    simp only [canonTable, List.length_map, symbolName_eq]
  subst ht'
  have h := absR_readSymbols (canonTable (ls.map UInt8.toNat)) m br
  have h2 := pSymbols_eob L _ hk (by simpa using hpos) syms
    (by intro i hi; have := hs i hi; simp; omega)
    (by intro e; rw [List.map_eq_nil_iff] at e; rw [e] at h3; simp at h3) m hm rest
  rw [List.length_map] at h2
  rw [hbr, h2] at h
  obtain ⟨br', g1, g2⟩ := absR_eq_ok h
  refine ⟨_, br', g1, g2, ?_⟩
  rw [List.map_map]
  apply List.map_congr_left
  intro i hi
  have := hs i hi
  rw [symbolName_eq, symbolAt, if_neg (by omega)]
  rfl

/-! Concrete instance: lengths 2, 1, 3, 3. -/
example : KraftLe 20 (([2, 1, 3, 3] : List UInt8).map UInt8.toNat) := by
  constructor <;> decide
example : (List.range 4).map (codeBits [2, 1, 3, 3]) =
    [[true, false], [false], [true, true, false], [true, true, true]] := by decide +kernel
/-- Symbols 0, 1, 2, 0, end in 11 bits: 10 0 110 10 111, then 5 more bits. -/
example : (BitReader.fromReader (Reader.ofBytes [0x9A, 0xF5])).bits =
    [0, 1, 2, 0].flatMap (codeBits [2, 1, 3, 3]) ++ codeBits [2, 1, 3, 3] 3 ++
      [true, false, true, false, true] := by decide +kernel

/-! ### C23 -/

/-- **C23.** For every frequency table of a block (2 to 257 counters: RUNA, RUNB and the MTF positions;
the end-of-block symbol is added) the construction of the code lengths does not panic, gives every
symbol exactly one length, between 1 and 17, and the lengths satisfy Kraft's equality. -/
theorem C23_lengths_complete_prefix_code (freqs : List Nat) (h1 : 1 ≤ freqs.length)
    (h2 : freqs.length ≤ 257) :
    ∃ T, computeHuffman freqs = Res.ok T ∧
      (T.map CodeTableEntry.symbol).Perm
        ((List.range (freqs.length + 1)).map (symbolName (freqs.length + 1))) ∧
      (∀ e ∈ T, 1 ≤ e.code ∧ e.code ≤ 17) ∧ KraftEq 17 (T.map CodeTableEntry.code) := by
  obtain ⟨T, ws, g1, g2, -, -, g5, -⟩ := computeHuffman_spec freqs h1 h2
  refine ⟨T, g1, ?_, ?_, g5⟩
  · rw [show symbolName (freqs.length + 1) = symbolAt (freqs.length + 1) from funext (symbolName_eq _)]
    exact g2
  · intro e he
    have hm : e.code ∈ T.map CodeTableEntry.code := List.mem_map.2 ⟨e, he, rfl⟩
    have hl : 2 ≤ (T.map CodeTableEntry.code).length := by
      have := g2.length_eq
      simp only [List.length_map, List.length_range] at this ⊢
      omega
    exact ⟨one_le_of_kraftEq 17 _ hl g5 _ hm, g5.1 _ hm⟩

/-- **C23**, trees: the lengths are the leaf depths of a full binary tree. -/
theorem C23_lengths_are_leaf_depths (freqs : List Nat) (h1 : 1 ≤ freqs.length)
    (h2 : freqs.length ≤ 257) (T : List CodeTableEntry) (hT : computeHuffman freqs = Res.ok T) :
    ∃ t : Tree, (leafDepths t 0).Perm (T.map CodeTableEntry.code) := by
  obtain ⟨T', g1, -, -, g4⟩ := C23_lengths_complete_prefix_code freqs h1 h2
  rw [hT] at g1
  injection g1 with g1
  subst g1
  exact tree_of_kraft 17 _ g4

/-- The codes the encoder uses: canonical codes of the computed lengths; the same table the decoder
builds from the transmitted lengths. -/
theorem C23_encoder_codes (freqs : List Nat) (h1 : 2 ≤ freqs.length) (h2 : freqs.length ≤ 257) :
    ∃ T C ls, computeHuffman freqs = Res.ok T ∧ canonicalize T = Res.ok C ∧
      ls.length = freqs.length + 1 ∧ KraftEq 17 (ls.map UInt8.toNat) ∧
      (∀ l ∈ ls, 1 ≤ l.toNat ∧ l.toNat ≤ 17) ∧ decoderTable ls = Res.ok C ∧
      C.map (fun e => UInt8.ofNat e.code.length) = ls := by
  obtain ⟨T, ws, g1, g2, -, -, g5, -⟩ := computeHuffman_spec freqs (by omega) h2
  obtain ⟨ls, k1, k2, k3⟩ := exists_entriesOf _ T g2
  have hk : KraftEq 17 ls :=
    ⟨fun l hl => g5.1 l (k3.mem_iff.1 hl), by rw [kraft_perm k3]; exact g5.2⟩
  have hpos := one_le_of_kraftEq 17 ls (by omega) hk
  have hkle : KraftLe 17 ls := ⟨hk.1, Nat.le_of_eq hk.2⟩
  have hmap : (ls.map UInt8.ofNat).map UInt8.toNat = ls := by
    rw [List.map_map]
    conv => rhs; rw [← List.map_id ls]
    apply List.map_congr_left
    intro l hl
    have := hk.1 l hl
    exact UInt8.toNat_ofNat_of_lt' (show l < 256 by omega)
  refine ⟨T, canonTable ls, ls.map UInt8.ofNat, g1,
    canonicalize_spec 17 (by omega) ls T k2 (by omega) (by intro e; rw [e] at k1; simp at k1) hkle,
    by simpa using k1, by rw [hmap]; exact hk, ?_, ?_, ?_⟩
  · intro l hl
    have : l.toNat ∈ (ls.map UInt8.ofNat).map UInt8.toNat := List.mem_map.2 ⟨l, hl, rfl⟩
    rw [hmap] at this
    exact ⟨hpos _ this, hk.1 _ this⟩
  · rw [C25_canonical_codes (ls.map UInt8.ofNat) (by simp; omega) (by simp; omega) 17 (by omega)
      (by rw [hmap]; exact hkle), hmap]
    simp only [canonTable, List.length_map, symbolName_eq]
  · unfold canonTable
    rw [List.map_map]
    apply List.ext_getElem (by simp)
    intro i hi _
    have hi : i < ls.length := by simpa using hi
    simp only [List.getElem_map, List.getElem_range, Function.comp, codeBits_length]
    simp [len, hi]

/-- A frequency table in which all three frequencies tie with the end-of-block symbol. -/
example : computeHuffman [0, 0, 0] = Res.ok [⟨3, HSym.normal ZleSymbol.runA⟩, ⟨3, HSym.normal ZleSymbol.runB⟩,
    ⟨2, HSym.normal (ZleSymbol.number 1)⟩, ⟨1, HSym.eob⟩] := by decide +kernel

/-! ### C24 -/

/-- The frequency of a symbol in the table the construction starts from: counter 0 for RUNA, 1 for
RUNB, `p + 1` for MTF position `p`, and 0 for the end-of-block symbol. -/
def symbolFrequency (freqs : List Nat) : HSym → Nat
  | HSym.eob => 0
  | HSym.normal ZleSymbol.runA => freqs.getD 0 0
  | HSym.normal ZleSymbol.runB => freqs.getD 1 0
  | HSym.normal (ZleSymbol.number p) => freqs.getD (p.toNat + 1) 0

theorem symbolFrequency_eq (freqs : List Nat) (s : HSym) : symbolFrequency freqs s = freqOf freqs s := by
  match s with
  | HSym.eob => rfl
  | HSym.normal ZleSymbol.runA => rfl
  | HSym.normal ZleSymbol.runB => rfl
  | HSym.normal (ZleSymbol.number _) => rfl

/-- `ws` are the tie-broken versions of the ascending frequencies `fs`: the least strictly increasing
sequence that is nowhere smaller. -/
def TieBroken (fs ws : List Nat) : Prop :=
  fs.Pairwise (· ≤ ·) ∧ ws.Pairwise (· < ·) ∧ List.Forall₂ (· ≤ ·) fs ws ∧
    ∀ vs : List Nat, vs.Pairwise (· < ·) → List.Forall₂ (· ≤ ·) fs vs → List.Forall₂ (· ≤ ·) ws vs

/-- **C24.** For the tie-broken frequencies the computed lengths have the least total weighted length
among all lengths of at most 17 that satisfy Kraft's inequality, that is, among all prefix codes
within the limit. -/
theorem C24_lengths_optimal (freqs : List Nat) (h1 : 1 ≤ freqs.length) (h2 : freqs.length ≤ 257) :
    ∃ T ws, computeHuffman freqs = Res.ok T ∧
      TieBroken (T.map fun e => symbolFrequency freqs e.symbol) ws ∧
      ∀ ls : List Nat, ls.length = T.length → KraftLe 17 ls →
        weightedLength ws (T.map CodeTableEntry.code) ≤ weightedLength ws ls := by
  obtain ⟨T, ws, g1, -, g3, g4, -, g6⟩ := computeHuffman_spec freqs h1 h2
  refine ⟨T, ws, g1, ?_, g6⟩
  simp only [symbolFrequency_eq]
  subst g3
  exact ⟨g4, bump_strict _ _, bump_ge _ _, fun vs hv hf => bump_least none _ vs hf hv (by simp)⟩

/-- Without ties the weights are the frequencies themselves. -/
theorem C24_no_ties (fs ws : List Nat) (h : TieBroken fs ws) (hs : fs.Pairwise (· < ·)) : ws = fs := by
  have h1 := h.2.2.1
  have h2 := h.2.2.2 fs hs (List.forall₂_same.2 (fun _ _ => Nat.le_refl _))
  clear h hs
  induction h1 with
  | nil => rfl
  | cons a _ ih =>
    cases h2 with
    | cons b c => rw [ih c]; congr 1; omega

/-- Frequencies 5, 2, 9, 1 (and 0 for the end of the block): code lengths 4, 4, 3, 2, 1. -/
example : computeHuffman [5, 2, 9, 1] = Res.ok [⟨4, HSym.eob⟩, ⟨4, HSym.normal (ZleSymbol.number 2)⟩,
    ⟨3, HSym.normal ZleSymbol.runB⟩, ⟨2, HSym.normal ZleSymbol.runA⟩, ⟨1, HSym.normal (ZleSymbol.number 1)⟩] := by
  decide +kernel
example : KraftLe 17 [3, 3, 2, 2, 2] := by constructor <;> decide

end Ribzip2
