import Verif.Proofs.Decoder
import Verif.Proofs.DecoderProps
import Verif.Proofs.Codes
import Verif.Proofs.Lengths
import Verif.Proofs.Selectors
import Verif.Proofs.SymbolMap
import Verif.Proofs.InverseBwt
import Verif.Proofs.InvRle
import Verif.Proofs.Zle
import Verif.Proofs.HuffmanLengths
/- The decoder on the bits of a block described by `BlockParts`. -/
namespace Ribzip2
open Spec

/-! ### The coded symbols -/

theorem payloadBits_append (tables : List (List Nat)) (sel : List Nat) (k : Nat) (a b : List Nat) :
    payloadBits tables sel k (a ++ b) = payloadBits tables sel k a ++ payloadBits tables sel (k + a.length) b := by
  induction a generalizing k with
  | nil => simp [payloadBits]
  | cons s a ih =>
    simp only [List.cons_append, payloadBits, ih, List.append_assoc, List.length_cons]
    rw [show k + 1 + a.length = k + (a.length + 1) by omega]

theorem payloadBits_shift (tables : List (List Nat)) (s : Nat) (sel : List Nat) (k : Nat) (l : List Nat) :
    payloadBits tables (s :: sel) (50 + k) l = payloadBits tables sel k l := by
  induction l generalizing k with
  | nil => rfl
  | cons x l ih =>
    simp only [payloadBits]
    rw [show 50 + k + 1 = 50 + (k + 1) by omega, ih, show (50 + k) / 50 = k / 50 + 1 by omega]
    rfl

theorem payloadBits_chunk (tables : List (List Nat)) (s : Nat) (sel : List Nat) (k : Nat) (l : List Nat)
    (h : k + l.length ≤ 50) :
    payloadBits tables (s :: sel) k l = l.flatMap (codeBits (tables.getD s [])) := by
  induction l generalizing k with
  | nil => rfl
  | cons x l ih =>
    simp only [List.length_cons] at h
    simp only [payloadBits, List.flatMap_cons]
    rw [ih (k + 1) (by omega), show k / 50 = 0 by omega]
    rfl

/-- What the decoder needs to know about the code tables. -/
def TablesOk (n : Nat) (tables : List (List Nat)) : Prop :=
  ∀ ls ∈ tables, ls.length = n + 2 ∧ KraftLe 20 ls ∧ ∀ l ∈ ls, 1 ≤ l

theorem pGroups_payload (n : Nat) (tables : List (List Nat)) (ht : TablesOk n tables)
    (h256 : tables.length ≤ 256) (sel : List Nat) (hsel : ∀ s ∈ sel, s < tables.length) (syms : List Nat)
    (hs : ∀ s ∈ syms, s < n + 1) (hlo : 50 * sel.length < syms.length + 51)
    (hhi : syms.length + 1 ≤ 50 * sel.length) (rest : List Bit) :
    pGroups (tables.map canonTable) (sel.map UInt8.ofNat)
        (payloadBits tables sel 0 (syms ++ [n + 1]) ++ rest)
      = Res.ok (syms.map symbolOfIndex, rest) := by
  induction sel generalizing syms with
  | nil => simp at hhi
  | cons s sel ih =>
    have hslt : s < tables.length := hsel s (by simp)
    obtain ⟨t1, t2, t3⟩ := ht _ (List.getElem_mem hslt)
    have hidx : idx (tables.map canonTable) (UInt8.ofNat s).toNat = Res.ok (canonTable tables[s]) := by
      rw [UInt8.toNat_ofNat_of_lt' (by show s < 256; omega), idx, List.getElem?_map,
        List.getElem?_eq_getElem hslt]
      rfl
    have hget : tables.getD s [] = tables[s] := by
      rw [List.getD_eq_getElem?_getD, List.getElem?_eq_getElem hslt]; rfl
    have hs' : ∀ i ∈ syms, i + 1 < tables[s].length := by
      intro i hi; have := hs i hi; omega
    simp only [List.length_cons] at hlo hhi
    simp only [List.map_cons, pGroups, hidx, Res.ok_bind]
    by_cases hl : syms.length + 1 ≤ 50
    · have hnil : sel = [] := by
        have : sel.length = 0 := by omega
        exact List.length_eq_zero_iff.1 this
      subst hnil
      rw [payloadBits_chunk _ _ _ _ _ (by simp; omega), hget, List.flatMap_append]
      simp only [List.flatMap_cons, List.flatMap_nil, List.append_nil]
      have := pSymbols_eob 20 tables[s] t2 t3 syms hs' (by intro h; rw [h] at t1; simp at t1) 50 (by omega) rest
      rw [show tables[s].length - 1 = n + 1 by omega] at this
      rw [this]
      simp [pGroups]
    · have e : syms = syms.take 50 ++ syms.drop 50 := (List.take_append_drop 50 syms).symm
      have hlen : (syms.take 50).length = 50 := by simp; omega
      have hbits : payloadBits tables (s :: sel) 0 (syms ++ [n + 1])
          = (syms.take 50).flatMap (codeBits tables[s])
            ++ payloadBits tables sel 0 (syms.drop 50 ++ [n + 1]) := by
        conv => lhs; rw [e, List.append_assoc, payloadBits_append, hlen]
        rw [payloadBits_chunk _ _ _ _ _ (by omega), hget]
        have := payloadBits_shift tables s sel 0 (syms.drop 50 ++ [n + 1])
        rw [show 50 + 0 = 0 + 50 by omega] at this
        rw [this]
      rw [hbits, List.append_assoc]
      have hf := pSymbols_full 20 tables[s] t2 t3 (syms.take 50)
        (fun i hi => hs' i (List.mem_of_mem_take hi)) (by intro h; rw [h] at hlen; simp at hlen)
        (payloadBits tables sel 0 (syms.drop 50 ++ [n + 1]) ++ rest)
      rw [hlen] at hf
      rw [hf]
      simp only [Res.unwrap_ok, Res.ok_bind]
      rw [ih (fun x hx => hsel x (by simp [hx])) (syms.drop 50)
        (fun x hx => hs x (List.mem_of_mem_drop hx)) (by simp; omega) (by simp; omega)]
      simp only [Res.ok_bind, Res.pure_eq]
      rw [← List.map_append, ← e]

/-! ### The code tables -/

theorem pTrees_tables (n : Nat) (tables : List (List Nat)) (bits : List (List Bool))
    (h : List.Forall₂ (LengthTable 1 20) tables bits) (hl : ∀ ls ∈ tables, ls.length = n + 2)
    (rest : List Bit) :
    pTrees (n + 2) tables.length (bits.flatten ++ rest)
      = Res.ok (tables.map fun ls => ls.map UInt8.ofNat, rest) := by
  induction h generalizing rest with
  | nil => rfl
  | @cons ls b tables bits h1 h2 ih =>
    have e := hl ls (by simp)
    have := pDelta_table h1 (by intro h; rw [h] at e; simp at e) (bits.flatten ++ rest)
    rw [e] at this
    simp only [List.flatten_cons, List.append_assoc, List.length_cons, pTrees, this, Res.unwrap_ok,
      Res.ok_bind]
    rw [ih (fun ls hls => hl ls (by simp [hls]))]
    rfl

theorem lengthTable_bounds {lo hi : Nat} {ls : List Nat} {bits : List Bool}
    (h : LengthTable lo hi ls bits) : ∀ l ∈ ls, lo ≤ l ∧ l ≤ hi := by
  obtain ⟨start, b, -, -, h⟩ := h
  exact lengthsFrom_bounds h

theorem forall₂_left {α β : Type} {R : α → β → Prop} {a : List α} {b : List β} (h : List.Forall₂ R a b) :
    ∀ x ∈ a, ∃ y, R x y := by
  induction h with
  | nil => simp
  | cons h1 h2 ih =>
    intro x hx
    rcases List.mem_cons.1 hx with rfl | hx
    · exact ⟨_, h1⟩
    · exact ih x hx

theorem buildTables_canon (n : Nat) (hn : 1 ≤ n) (hn2 : n ≤ 256) (tables : List (List Nat))
    (ht : TablesOk n tables) :
    buildTables (tables.map fun ls => ls.map UInt8.ofNat) = Res.ok (tables.map canonTable) := by
  induction tables with
  | nil => rfl
  | cons ls tables ih =>
    obtain ⟨t1, t2, t3⟩ := ht ls (by simp)
    have hb : ∀ l ∈ ls, l < 256 := fun l hl => by have := t2.1 l hl; omega
    have hw := fromWeights_eq (ls.map UInt8.ofNat) (by simp; omega) (by simp; omega)
    rw [map_toNat_ofNat ls hb] at hw
    have hc := canonicalize_spec 20 (by omega) ls (entriesOf ls) (List.Perm.refl _) (by omega)
      (by intro h; rw [h] at t1; simp at t1) t2
    simp only [List.map_cons, buildTables, hw, Res.ok_bind, hc,
      ih (fun x hx => ht x (by simp [hx]))]
    rfl

/-! ### The block -/

/-- What the decoder needs: as `BlockParts.Valid` without the transform stages, with any number of
tables the field can hold, and with exactly as many selectors as there are groups. -/
structure Readable (p : BlockParts) : Prop where
  ptr : p.ptr < 2 ^ 24
  used : p.used.Pairwise (· < ·)
  usedNe : p.used ≠ []
  symbols : ∀ s ∈ p.syms, s < p.used.length + 1
  numTables : p.tables.length < 8
  lengths : ∀ ls ∈ p.tables, ls.length = p.used.length + 2 ∧ KraftLe 20 ls
  transmitted : List.Forall₂ (LengthTable 1 20) p.tables p.tableBits
  numSelectors : p.sel.length < 2 ^ 15
  selected : SelectorBits p.tables.length p.sel p.selBits
  enough : p.syms.length + 1 ≤ 50 * p.sel.length
  exact : 50 * p.sel.length < p.syms.length + 51

theorem used_length_le {U : List UInt8} (h : U.Pairwise (· < ·)) : U.length ≤ 256 := by
  rw [← usedBytes_of_sorted U h]
  exact usedBytes_length U

theorem number_bits (n x : Nat) (h : x < 2 ^ n) : convertToNumber (natToBits n x) = x := by
  rw [convertToNumber_eq, bitsToNat_natToBits, Nat.mod_eq_of_lt h]

theorem selectorBits_mem {n : Nat} {sel : List Nat} {bits : List Bool} (h : SelectorBits n sel bits) :
    ∀ s ∈ sel, s < n := by
  obtain ⟨pos, h1, -⟩ := h
  intro s hs
  simpa using mtfDecode_mem _ _ _ h1 s hs

/-- What is needed to read the coded part of a block back (neither the transform stages nor the exact number
of selectors matter). -/
structure Sound (p : BlockParts) : Prop where
  ptr : p.ptr < 2 ^ 24
  used : p.used.Pairwise (· < ·)
  symbols : ∀ s ∈ p.syms, s < p.used.length + 1
  numTables : p.tables.length < 8
  lengths : ∀ ls ∈ p.tables, ls.length = p.used.length + 2 ∧ KraftLe 20 ls
  transmitted : List.Forall₂ (LengthTable 1 20) p.tables p.tableBits
  numSelectors : p.sel.length < 2 ^ 15
  selected : SelectorBits p.tables.length p.sel p.selBits
  enough : p.syms.length + 1 ≤ 50 * p.sel.length

theorem Readable.sound {p : BlockParts} (h : Readable p) : Sound p :=
  ⟨h.ptr, h.used, h.symbols, h.numTables, h.lengths, h.transmitted, h.numSelectors, h.selected, h.enough⟩

theorem Sound.tablesOk {p : BlockParts} (h : Sound p) : TablesOk p.used.length p.tables := by
  intro ls hls
  obtain ⟨bits, hb⟩ := forall₂_left h.transmitted ls hls
  exact ⟨(h.lengths ls hls).1, (h.lengths ls hls).2, fun l hl => (lengthTable_bounds hb l hl).1⟩

theorem Readable.tablesOk {p : BlockParts} (h : Readable p) : TablesOk p.used.length p.tables := h.sound.tablesOk

/-- The decoder of a block up to the transform stages: CRC field, pointer, used bytes and coded symbols. -/
def pParts : Parser (BitVec 32 × Nat × List UInt8 × List ZleSymbol) := fun bs => do
  let (crcBits, bs) ← (takeBits 32 bs).unwrap
  let (_randomized, bs) ← takeBits 1 bs
  let (ptrBits, bs) ← (takeBits 24 bs).unwrap
  let (symbols, bs) ← (pSymbolTable bs).unwrap
  let (treeBits, bs) ← (takeBits 3 bs).unwrap
  let (selBits, bs) ← (takeBits 15 bs).unwrap
  let (selectors, bs) ← (pUnary (convertToNumber selBits) bs).unwrap
  let selectors ← inverseMtf selectors ((List.range (convertToNumber treeBits)).map UInt8.ofNat)
  let (trees, bs) ← pTrees (symbols.length + 2) (convertToNumber treeBits) bs
  let tables ← buildTables trees
  let (zleInput, bs) ← pGroups tables selectors bs
  pure ((BitVec.ofNat 32 (convertToNumber crcBits), convertToNumber ptrBits, symbols, zleInput), bs)

theorem pBlock_eq_parts (bs : List Bit) : pBlock bs =
    (pParts bs >>= fun x => finishBlock x.1.1 x.1.2.1 x.1.2.2.1 x.1.2.2.2 >>= fun d => Res.ok (d, x.2)) := by
  simp only [pBlock, pParts, bind_assoc, Res.pure_eq, Res.ok_bind]

/-- The decoder reads a block back up to the transform stages. -/
theorem pParts_body (p : BlockParts) (h : Readable p) (crc : BitVec 32) (rest : List Bit) :
    pParts (natToBits 32 crc.toNat ++ p.body ++ rest) =
      Res.ok ((crc, p.ptr, p.used, p.syms.map symbolOfIndex), rest) := by
  have h256 := used_length_le h.used
  have hpos : 1 ≤ p.used.length := List.length_pos_iff.2 h.usedNe
  have hselne : p.sel ≠ [] := by
    intro e
    have := h.enough
    rw [e] at this
    simp at this
  have hnt := h.numTables
  obtain ⟨enc, u1, u2⟩ := pUnary_selectorBits h.selected (by omega) hselne
    (p.tableBits.flatten ++ (payloadBits p.tables p.sel 0 (p.syms ++ [p.eob]) ++ rest))
  have hT := pTrees_tables p.used.length p.tables p.tableBits h.transmitted
    (fun ls hls => (h.lengths ls hls).1) (payloadBits p.tables p.sel 0 (p.syms ++ [p.eob]) ++ rest)
  have hB := buildTables_canon p.used.length hpos h256 p.tables h.tablesOk
  have hG := pGroups_payload p.used.length p.tables h.tablesOk (by omega) p.sel
    (selectorBits_mem h.selected) p.syms h.symbols (by have := h.exact; omega) h.enough rest
  simp only [BlockParts.body, pParts, List.append_assoc]
  rw [takeBits_append (natToBits_length 32 _)]
  simp only [Res.unwrap_ok, Res.ok_bind]
  rw [takeBits_append (n := 1) rfl]
  simp only [Res.ok_bind]
  rw [takeBits_append (natToBits_length 24 _)]
  simp only [Res.unwrap_ok, Res.ok_bind]
  rw [pSymbolTable_map, usedBytes_of_sorted _ h.used]
  simp only [Res.unwrap_ok, Res.ok_bind]
  rw [takeBits_append (natToBits_length 3 _)]
  simp only [Res.unwrap_ok, Res.ok_bind]
  rw [takeBits_append (natToBits_length 15 _)]
  simp only [Res.unwrap_ok, Res.ok_bind]
  rw [number_bits 15 _ h.numSelectors, number_bits 3 _ (by omega), number_bits 24 _ h.ptr,
    number_bits 32 _ crc.isLt, u1]
  simp only [Res.unwrap_ok, Res.ok_bind]
  rw [show (List.range p.tables.length).map UInt8.ofNat = allTables p.tables.length from rfl, u2]
  simp only [Res.ok_bind]
  rw [hT]
  simp only [Res.ok_bind]
  rw [hB]
  simp only [Res.ok_bind]
  have he : p.eob = p.used.length + 1 := rfl
  rw [he, hG]
  simp only [Res.ok_bind, BitVec.ofNat_toNat, BitVec.setWidth_eq]
  rfl

theorem pBlock_body (p : BlockParts) (h : Readable p) (crc : BitVec 32) (rest : List Bit) :
    pBlock (natToBits 32 crc.toNat ++ p.body ++ rest) =
      (finishBlock crc p.ptr p.used (p.syms.map symbolOfIndex) >>= fun d => Res.ok (d, rest)) := by
  rw [pBlock_eq_parts, pParts_body p h, Res.ok_bind]

/-! ### The transform stages -/

theorem symbolOfIndex_number {i : Nat} {n : UInt8} (h : symbolOfIndex i = ZleSymbol.number n) (hi : i ≤ 256) :
    n ≠ 0 := by
  match i with
  | 0 => simp [symbolOfIndex] at h
  | 1 => simp [symbolOfIndex] at h
  | x + 2 =>
    simp only [symbolOfIndex, ZleSymbol.number.injEq] at h
    intro hn
    rw [hn] at h
    have := congrArg UInt8.toNat h
    rw [UInt8.toNat_ofNat_of_lt' (by show x + 2 - 1 < 256; omega)] at this
    simp at this

theorem map_symbolIndex (syms : List Nat) (h : ∀ s ∈ syms, s ≤ 256) :
    (syms.map symbolOfIndex).map symbolIndex = syms := by
  rw [List.map_map]
  conv => rhs; rw [← List.map_id syms]
  apply List.map_congr_left
  intro s hs
  simp only [Function.comp_apply, id]
  exact symbolIndex_symbolOfIndex s (h s hs)

/-- The transform stages undo the format's transforms, given that `inverse_rle` does. -/
theorem finishBlock_valid (p : BlockParts) (hu : p.used.Pairwise (· < ·))
    (hs : ∀ s ∈ p.syms, s < p.used.length + 1)
    (hm : mtfDecode p.used (zleDecode 1 p.syms) = some p.last) (hb : IsBwt p.rle p.last p.ptr)
    (hlen : p.rle.length + 1 ≤ 2 ^ 63) (crc : BitVec 32) :
    finishBlock crc p.ptr p.used (p.syms.map symbolOfIndex)
      = if Ribzip2.crc32 (inverseRle p.rle) = crc then Res.ok (inverseRle p.rle) else Res.err := by
  have h256 := used_length_le hu
  have hlast : p.last.length = p.rle.length := by
    obtain ⟨rows, h1, -, h3, -⟩ := hb
    rw [h3, List.length_map, h1.length_eq, rotations, List.length_map, List.length_range]
  have hzl := mtfDecode_length _ _ _ hm
  have hidx : (p.syms.map symbolOfIndex).map symbolIndex = p.syms :=
    map_symbolIndex _ fun s h => by have := hs s h; omega
  have hz := decodeZle_eq (p.syms.map symbolOfIndex)
    (by
      intro n hn
      obtain ⟨i, hi, e⟩ := List.mem_map.1 hn
      exact symbolOfIndex_number e (by have := hs i hi; omega))
    (by rw [hidx]; omega)
  rw [hidx] at hz
  have hpos := mtfDecode_pos_lt _ _ _ hm
  have hinv : inverseMtf ((zleDecode 1 p.syms).map UInt8.ofNat) p.used = Res.ok p.last := by
    have := inverseMtfLoop_spec ((zleDecode 1 p.syms).map UInt8.ofNat) p.used
      (hu.imp (fun {a b} (h : a < b) => by rintro rfl; exact absurd h (by simp)))
    rw [map_toNat_ofNat _ (fun x hx => by have := hpos x hx; omega), hm] at this
    exact this
  simp only [finishBlock, hz, Res.ok_bind, hinv, inverseBwt_spec _ _ _ hb]
  rfl

/-! ### Streams -/

/-- The decoder on consecutive blocks it reads back. -/
theorem pBlocks_good (blocks : List (List UInt8 × List Bool))
    (h : ∀ b ∈ blocks, ∀ rest, pBlock (natToBits 32 (Spec.crc32 b.1).toNat ++ b.2 ++ rest) = Res.ok (b.1, rest))
    (tail : List Bit) (fuel : Nat) (hf : blocks.length < fuel) :
    pBlocks fuel (blockFrames blocks ++ footerMagic ++ tail) = (blocks.map (·.1), Res.ok ()) := by
  induction blocks generalizing fuel with
  | nil =>
    match fuel, hf with
    | fuel + 1, _ =>
      simp only [blockFrames, List.flatMap_nil, List.nil_append, pBlocks, pWhatNext_footer]
      rfl
  | cons b blocks ih =>
    match fuel, hf with
    | fuel + 1, hf =>
      have hb := h b (by simp) (blockFrames blocks ++ footerMagic ++ tail)
      have e : blockFrames (b :: blocks) ++ footerMagic ++ tail
          = blockMagic ++ (natToBits 32 (Spec.crc32 b.1).toNat ++ b.2 ++ (blockFrames blocks ++ footerMagic ++ tail)) := by
        simp [blockFrames, blockFrame]
      rw [e]
      simp only [pBlocks, pWhatNext_block, hb]
      rw [ih (fun x hx => h x (by simp [hx])) fuel (by simpa using hf)]
      rfl

theorem blockFrames_length (blocks : List (List UInt8 × List Bool)) :
    blocks.length ≤ (blockFrames blocks).length := by
  induction blocks with
  | nil => simp
  | cons b blocks ih =>
    have : (blockFrames (b :: blocks)).length = (blockFrame b.1 b.2).length + (blockFrames blocks).length := by
      simp [blockFrames]
    have h2 : 1 ≤ (blockFrame b.1 b.2).length := by
      simp only [blockFrame, List.length_append, natToBits_length]
      omega
    simp only [List.length_cons]
    omega

/-- The decoder on a stream whose blocks it reads back. -/
theorem decodeBytes_good (level : UInt8) (blocks : List (List UInt8 × List Bool)) (bytes : List UInt8)
    (tail : List Bit)
    (h : ∀ b ∈ blocks, ∀ rest, pBlock (natToBits 32 (Spec.crc32 b.1).toNat ++ b.2 ++ rest) = Res.ok (b.1, rest))
    (hb : bytesBits bytes = streamHeader level ++ blockFrames blocks ++ footerMagic ++ tail) :
    decodeBytes bytes = Res.ok (contents blocks) := by
  have hp : pStream (bytesBits bytes) = (blocks.map (·.1), Res.ok ()) := by
    rw [hb, List.append_assoc, List.append_assoc, pStream, pHeader_append]
    simp only []
    rw [← List.append_assoc]
    exact pBlocks_good blocks h tail _ (by
      have := blockFrames_length blocks
      simp only [List.length_append]
      omega)
  rw [decodeBytes_eq, hp]
  simp [contents, List.flatMap_def]

end Ribzip2
