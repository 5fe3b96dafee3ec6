import Verif.Proofs.BlockDecode
import Verif.Proofs.StreamWriter
import Verif.Proofs.F32
import Verif.Proofs.Tree
import Verif.Props.Bwt
/- The bits `generate_block_data` emits. -/
namespace Ribzip2
open Spec

/-! ### Code tables -/

theorem kraft_mono (ls : List Nat) (a b : Nat) (h : ∀ l ∈ ls, l ≤ a) (hab : a ≤ b) :
    kraft b ls = kraft a ls * 2 ^ (b - a) := by
  have := sum_shift ls id a b (by simpa using h) hab
  simpa [kraft] using this

theorem kraftLe_mono {ls : List Nat} {a b : Nat} (h : KraftLe a ls) (hab : a ≤ b) : KraftLe b ls := by
  refine ⟨fun l hl => (h.1 l hl).trans hab, ?_⟩
  rw [kraft_mono ls a b h.1 hab]
  calc kraft a ls * 2 ^ (b - a) ≤ 2 ^ a * 2 ^ (b - a) := Nat.mul_le_mul_right _ h.2
    _ = 2 ^ b := by rw [← Nat.pow_add]; congr 1; omega

/-- The code table made from one frequency table of a block with `n` used bytes. -/
theorem codeTable_ok (n : Nat) (hn : 1 ≤ n) (hn2 : n ≤ 256) (freqs : List Nat) (hf : freqs.length = n + 1) :
    ∃ T ls, computeHuffman freqs = Res.ok T ∧ canonicalize T = Res.ok (canonTable ls) ∧
      ls.length = n + 2 ∧ KraftEq 17 ls ∧ KraftLe 20 ls ∧ ∀ l ∈ ls, 1 ≤ l := by
  obtain ⟨T, ws, g1, g2, -, -, g5, -⟩ := computeHuffman_spec freqs (by omega) (by omega)
  obtain ⟨ls, k1, k2, k3⟩ := exists_entriesOf _ T g2
  have hk : KraftEq 17 ls :=
    ⟨fun l hl => g5.1 l (k3.mem_iff.1 hl), by rw [kraft_perm k3]; exact g5.2⟩
  have hkle : KraftLe 17 ls := ⟨hk.1, Nat.le_of_eq hk.2⟩
  exact ⟨T, ls, g1, canonicalize_spec 17 (by omega) ls T k2 (by omega)
    (by intro e; rw [e] at k1; simp at k1) hkle, by omega, hk, kraftLe_mono hkle (by omega),
    one_le_of_kraftEq 17 ls (by omega) hk⟩

theorem canonTable_lengths (ls : List Nat) :
    (canonTable ls).map (fun e => UInt8.ofNat e.code.length) = ls.map UInt8.ofNat := by
  unfold canonTable
  rw [List.map_map]
  apply List.ext_getElem (by simp)
  intro i hi _
  have hi : i < ls.length := by simpa using hi
  simp only [List.getElem_map, List.getElem_range, Function.comp, codeBits_length]
  simp [len, hi]

theorem encodeCodeTable_ok (ls : List Nat) (hne : ls ≠ []) (h : ∀ l ∈ ls, 1 ≤ l ∧ l ≤ 20) :
    LengthTable 1 20 ls (encodeCodeTable (canonTable ls)) := by
  rw [encodeCodeTable, canonTable_lengths]
  match ls, hne with
  | l :: ls, _ =>
    have hm : ∀ x ∈ l :: ls, x < 256 := fun x hx => by have := h x hx; omega
    have e := map_toNat_ofNat (l :: ls) hm
    have := encodeBitLengths_table 1 20 (UInt8.ofNat l) (ls.map UInt8.ofNat)
      (by
        have := h l (by simp)
        rw [UInt8.toNat_ofNat_of_lt' (by show l < 256; omega)]
        omega)
      (by
        intro x hx
        have hx' : x ∈ (l :: ls).map UInt8.ofNat := by simpa using hx
        obtain ⟨y, hy, rfl⟩ := List.mem_map.1 hx'
        have := h y hy
        rw [UInt8.toNat_ofNat_of_lt' (by show y < 256; omega)]
        exact this)
    rw [← List.map_cons, e] at this
    exact this

/-- Code tables of a block. -/
structure TablesMade (n : Nat) (freqs : List (List Nat)) (tables : List (List Nat)) : Prop where
  count : tables.length = freqs.length
  lengths : ∀ ls ∈ tables, ls.length = n + 2 ∧ KraftLe 20 ls ∧ ∀ l ∈ ls, 1 ≤ l
  complete : ∀ ls ∈ tables, KraftEq 17 ls
  made : codeTables freqs = Res.ok (tables.map canonTable)

theorem codeTables_ok (n : Nat) (hn : 1 ≤ n) (hn2 : n ≤ 256) (freqs : List (List Nat))
    (hf : ∀ f ∈ freqs, f.length = n + 1) : ∃ tables, TablesMade n freqs tables := by
  induction freqs with
  | nil => exact ⟨[], rfl, by simp, by simp, rfl⟩
  | cons f freqs ih =>
    obtain ⟨tables, h⟩ := ih fun x hx => hf x (by simp [hx])
    obtain ⟨T, ls, g1, g2, g3, g4, g5, g6⟩ := codeTable_ok n hn hn2 f (hf f (by simp))
    refine ⟨ls :: tables, by simp [h.count], ?_, ?_, ?_⟩
    · intro x hx
      rcases List.mem_cons.1 hx with rfl | hx
      · exact ⟨g3, g5, g6⟩
      · exact h.lengths x hx
    · intro x hx
      rcases List.mem_cons.1 hx with rfl | hx
      · exact g4
      · exact h.complete x hx
    · simp only [codeTables, g1, Res.ok_bind, g2, h.made]
      rfl

theorem tables_transmitted (n : Nat) (tables : List (List Nat)) (h : TablesOk n tables) :
    List.Forall₂ (LengthTable 1 20) tables (tables.map fun ls => encodeCodeTable (canonTable ls)) := by
  induction tables with
  | nil => exact List.Forall₂.nil
  | cons ls tables ih =>
    obtain ⟨h1, h2, h3⟩ := h ls (by simp)
    exact List.Forall₂.cons
      (encodeCodeTable_ok ls (by intro e; rw [e] at h1; simp at h1) fun l hl => ⟨h3 l hl, h2.1 l hl⟩)
      (ih fun x hx => h x (by simp [hx]))

/-! ### Coded symbols -/

/-- A symbol that the zero-run stage can produce in a block with `n` used bytes. -/
def SymOk (n : Nat) (s : ZleSymbol) : Prop := symbolIndex s ≤ n ∧ s ≠ ZleSymbol.number 0

theorem symbolAt_symbolIndex (n : Nat) (s : ZleSymbol) (h : SymOk n s) :
    symbolAt (n + 2) (symbolIndex s) = HSym.normal s := by
  obtain ⟨h1, h2⟩ := h
  rw [symbolAt, if_neg (by omega)]
  congr 1
  match s with
  | ZleSymbol.runA => rfl
  | ZleSymbol.runB => rfl
  | ZleSymbol.number v =>
    have hv : v.toNat ≠ 0 := fun h => h2 (by rw [show v = 0 from UInt8.toNat_inj.1 (by simpa using h)])
    simp only [symbolIndex]
    match hk : v.toNat, hv with
    | k + 1, _ =>
      show ZleSymbol.number (UInt8.ofNat (k + 1 + 1 - 1)) = _
      rw [show k + 1 + 1 - 1 = v.toNat by omega, UInt8.ofNat_toNat]

theorem codeOf_ok (n : Nat) (hn2 : n ≤ 256) (ls : List Nat) (hl : ls.length = n + 2) (s : ZleSymbol)
    (hs : SymOk n s) : codeOf (canonTable ls) (HSym.normal s) = codeBits ls (symbolIndex s) := by
  have := codeOf_canonTable ls (by omega) (symbolIndex s) (by have := hs.1; omega)
  rw [hl, symbolAt_symbolIndex n s hs] at this
  rw [codeOf, this]

theorem tableAt_ok (tables : List (List Nat)) (sel : List UInt8) (hsel : ∀ s ∈ sel, s.toNat < tables.length)
    (k : Nat) (hk : k / 50 < sel.length) :
    ∃ ls ∈ tables, tableAt (tables.map canonTable) sel k = Res.ok (canonTable ls) ∧
      tables.getD ((sel.map UInt8.toNat).getD (k / 50) 0) [] = ls := by
  have hlt := hsel _ (List.getElem_mem hk)
  refine ⟨tables[sel[k / 50].toNat], List.getElem_mem hlt, ?_, ?_⟩
  · simp only [tableAt, idx, List.getElem?_eq_getElem hk, Res.ofOption_some, Res.ok_bind, List.getElem?_map,
      List.getElem?_eq_getElem hlt]
    rfl
  · rw [List.getD_eq_getElem?_getD, List.getD_eq_getElem?_getD, List.getElem?_map,
      List.getElem?_eq_getElem hk]
    simp [hlt]

theorem encodeSymbols_ok (n : Nat) (hn2 : n ≤ 256) (tables : List (List Nat))
    (ht : ∀ ls ∈ tables, ls.length = n + 2) (sel : List UInt8)
    (hsel : ∀ s ∈ sel, s.toNat < tables.length) (zle : List ZleSymbol) (hz : ∀ s ∈ zle, SymOk n s) (k : Nat)
    (hk : k + zle.length ≤ 50 * sel.length) :
    encodeSymbols (tables.map canonTable) sel zle k
      = Res.ok (payloadBits tables (sel.map UInt8.toNat) k (zle.map symbolIndex)) := by
  induction zle generalizing k with
  | nil => rfl
  | cons s zle ih =>
    simp only [List.length_cons] at hk
    obtain ⟨ls, h1, h2, h3⟩ := tableAt_ok tables sel hsel k (by omega)
    simp only [encodeSymbols, h2, Res.ok_bind, ih (fun x hx => hz x (by simp [hx])) (k + 1) (by omega),
      List.map_cons, payloadBits, h3, codeOf_ok n hn2 ls (ht ls h1) s (hz s (by simp))]
    rfl

/-! ### The block -/

/-- `emit_block` never fails on consistent statistics, and what it writes. -/
theorem emitBlock_ok (crc : BitVec 32) (ptr : Nat) (used : List UInt8) (zle : List ZleSymbol)
    (rep : ReportedSymbols) (h1 : 1 ≤ used.length) (h2 : used.length ≤ 256)
    (hf : ∀ f ∈ rep.frequencies, f.length = used.length + 1)
    (hsel : ∀ s ∈ rep.selectors, s.toNat < rep.frequencies.length)
    (hcnt : zle.length + 1 ≤ 50 * rep.selectors.length) (h15 : rep.selectors.length < 2 ^ 15)
    (hz : ∀ s ∈ zle, SymOk used.length s) :
    ∃ (tables : List (List Nat)) (enc : List UInt8), TablesMade used.length rep.frequencies tables ∧
      mtfDecode (usedBytes rep.selectors) (enc.map UInt8.toNat) = some rep.selectors ∧
      emitBlock crc ptr used zle rep = Res.ok (blockMagic ++ natToBits 32 crc.toNat ++
        ([false] ++ natToBits 24 ptr ++ symbolMapBits used ++ convertToCodePadToNBits rep.frequencies.length 3
          ++ natToBits 15 rep.selectors.length ++ (enc.map UInt8.toNat).flatMap unary
          ++ (tables.map fun ls => encodeCodeTable (canonTable ls)).flatten
          ++ payloadBits tables (rep.selectors.map UInt8.toNat) 0
              (zle.map symbolIndex ++ [used.length + 1]))) := by
  obtain ⟨tables, ht⟩ := codeTables_ok used.length h1 h2 rep.frequencies hf
  obtain ⟨enc, e1, e2, e3⟩ := createSelectors_eq rep.selectors
  refine ⟨tables, enc, ht, e2, ?_⟩
  have hlen : ∀ ls ∈ tables, ls.length = used.length + 2 := fun ls h => (ht.lengths ls h).1
  have hsel' : ∀ s ∈ rep.selectors, s.toNat < tables.length := by rw [ht.count]; exact hsel
  have hp := encodeSymbols_ok used.length h2 tables hlen rep.selectors hsel' zle hz 0 (by omega)
  obtain ⟨ls, l1, l2, l3⟩ := tableAt_ok tables rep.selectors hsel' zle.length (by omega)
  have hn : (UInt16.ofNat rep.selectors.length).toNat = rep.selectors.length :=
    UInt16.toNat_ofNat_of_lt' (by show _ < 65536; omega)
  have h15' := convertToCodePadTo15Bits_eq (UInt16.ofNat rep.selectors.length) (by rw [hn]; exact h15)
  rw [hn] at h15'
  have heob := codeOf_canonTable ls (by rw [hlen ls l1]; omega) (used.length + 1) (by rw [hlen ls l1]; omega)
  rw [hlen ls l1, symbolAt, if_pos rfl] at heob
  have hpay : payloadBits tables (rep.selectors.map UInt8.toNat) 0 (zle.map symbolIndex ++ [used.length + 1])
      = payloadBits tables (rep.selectors.map UInt8.toNat) 0 (zle.map symbolIndex)
        ++ codeBits ls (used.length + 1) := by
    rw [payloadBits_append]
    simp only [List.length_map, payloadBits, List.append_nil, Nat.zero_add, l3]
  have hflat : (tables.map canonTable).flatMap encodeCodeTable
      = (tables.map fun ls => encodeCodeTable (canonTable ls)).flatten := by
    rw [List.flatMap_def, List.map_map]
    rfl
  simp only [emitBlock, ht.made, e1, Res.ok_bind, h15', hp, l2, heob, Res.ofOption_some, Res.pure_eq,
    List.length_map, hflat, hpay, blockHeader_eq, getSymbolTable_eq, unaryCode_eq, ht.count]
  simp only [List.append_assoc]

/-! ### Statistics of the single-table strategy -/

theorem zleEncode_symOk (n : Nat) (hn : 1 ≤ n) (d : List UInt8) (hd : ∀ i ∈ d, i.toNat < n) :
    ∀ s ∈ zleEncode 0 d, SymOk n s := by
  intro s hs
  match s, hs with
  | ZleSymbol.runA, _ => exact ⟨by simp [symbolIndex], by simp⟩
  | ZleSymbol.runB, _ => exact ⟨by simpa [symbolIndex] using hn, by simp⟩
  | ZleSymbol.number v, hs =>
    obtain ⟨h1, h2⟩ := zleEncode_number 0 d v hs
    have := hd v h2
    exact ⟨by simp only [symbolIndex]; omega, by simpa using h1⟩

theorem zeroDigits_length (fuel m : Nat) (hm : 0 < m) : (zeroDigits fuel m).length ≤ m := by
  induction fuel generalizing m with
  | zero => simp [zeroDigits]
  | succ fuel ih =>
    simp only [zeroDigits, hm, if_true, List.length_cons]
    by_cases h : m / 2 > 0
    · have := ih (m / 2) h
      omega
    · have : m / 2 = 0 := by omega
      rw [this]
      cases fuel <;> simp [zeroDigits] <;> omega

theorem runSyms_length (n : Nat) : (runSyms n).length ≤ n := by
  unfold runSyms
  split
  · have := zeroDigits_length (n + 1) (n + 1) (by omega)
    simp only [encodeZeroAmount, List.length_dropLast]
    omega
  · simp

theorem zleEncode_length (zc : Nat) (d : List UInt8) : (zleEncode zc d).length ≤ zc + d.length := by
  induction d generalizing zc with
  | nil => simpa [zleEncode] using runSyms_length zc
  | cons i d ih =>
    simp only [zleEncode]
    split
    · have := ih (zc + 1)
      simp only [List.length_cons]
      omega
    · have := ih 0
      have := runSyms_length zc
      simp only [List.length_append, List.length_cons]
      omega

theorem single_reportAll (n : Nat) (syms : List ZleSymbol) (hs : ∀ s ∈ syms, symbolIndex s ≤ n)
    (m : SingleMap) (hm : m.frequencies.length = n + 1) :
    ∃ m', reportAll singleReporter m syms = Res.ok m' ∧ m'.frequencies.length = n + 1 ∧
      m'.symbolCount = m.symbolCount + syms.length := by
  induction syms generalizing m with
  | nil => exact ⟨m, rfl, hm, rfl⟩
  | cons s syms ih =>
    have hlt : symbolIndex s < m.frequencies.length := by have := hs s (by simp); omega
    obtain ⟨m', h1, h2, h3⟩ := ih (fun x hx => hs x (by simp [hx]))
      ⟨m.frequencies.set (symbolIndex s) (m.frequencies[symbolIndex s] + 1), m.symbolCount + 1⟩ (by simpa using hm)
    refine ⟨m', ?_, h2, by simp only [List.length_cons]; simp only at h3; omega⟩
    simp only [reportAll, singleReporter, SingleMap.report, idx, List.getElem?_eq_getElem hlt,
      Res.ofOption_some, Res.ok_bind, setIdx, if_pos hlt, Res.pure_eq]
    exact h1

theorem single_zle (dist : Distance) (n : Nat) (hn : 1 ≤ n) (d : List UInt8) (hd : ∀ i ∈ d, i.toNat < n)
    (hlen : d.length + 1 < 2 ^ 20) :
    ∃ f : List Nat, f.length = n + 1 ∧ zleWithStrategy dist Strategy.single d n
      = Res.ok (zleEncode 0 d, ⟨[f, f], List.replicate (((zleEncode 0 d).length + 50) / 50) 0⟩) := by
  have hl := zleEncode_length 0 d
  obtain ⟨m, h1, h2, h3⟩ := single_reportAll n (zleEncode 0 d ++ [ZleSymbol.runA])
    (by
      intro s hs
      rcases List.mem_append.1 hs with hs | hs
      · exact (zleEncode_symOk n hn d hd s hs).1
      · simp at hs; subst hs; simp [symbolIndex])
    (SingleMap.create n) (by simp [SingleMap.create])
  refine ⟨m.frequencies, h2, ?_⟩
  have h3' : m.symbolCount = (zleEncode 0 d).length + 1 := by
    rw [h3]; simp [SingleMap.create]
  have hc := selectorCount_eq m.symbolCount (by omega)
  simp only [zleWithStrategy, zleTransform_eq, h1, Res.ok_bind]
  simp only [singleReporter, SingleMap.finalize, hc]
  rw [h3']
  rfl

/-! ### A whole block -/

/-- Statistics of a block with `n` used bytes that `emit_block` can work with: `nc` tables. -/
structure StatsOk (n nc : Nat) (zle : List ZleSymbol) (rep : ReportedSymbols) : Prop where
  count : rep.frequencies.length = nc
  dims : ∀ f ∈ rep.frequencies, f.length = n + 1
  sel : ∀ s ∈ rep.selectors, s.toNat < nc
  enough : zle.length + 1 ≤ 50 * rep.selectors.length
  fit : rep.selectors.length < 2 ^ 15

/-- The first stages of `generate_block_data` (block_encoder.rs:28-49): the symbols of a block and the
statistics of the strategy. -/
def blockStats (dist : Distance) (strategy : Strategy) (rleData : List UInt8) :
    Res (List ZleSymbol × ReportedSymbols) := do
  let (bwtData, _) ← bwt rleData
  let (encoded, used) ← mtf bwtData
  zleWithStrategy dist strategy encoded used.length

/-- A table is used only if all tables before it are used. -/
def NoGap (sel : List UInt8) : Prop := ∀ s ∈ sel, ∀ t : UInt8, t < s → t ∈ sel

/-- The strategy makes workable statistics with `nc` tables for every block. -/
def Workable (dist : Distance) (strategy : Strategy) (nc : Nat) : Prop :=
  ∀ (n : Nat) (enc : List UInt8), 1 ≤ n → (∀ i ∈ enc, i.toNat < n) → enc.length + 1 < 2 ^ 20 →
    ∃ rep, zleWithStrategy dist strategy enc n = Res.ok (zleEncode 0 enc, rep) ∧
      StatsOk n nc (zleEncode 0 enc) rep

theorem usedBytes_noGap (sel : List UInt8) (h : NoGap sel) :
    usedBytes sel = allTables (usedBytes sel).length := by
  have hU := usedBytes_pairwise sel
  have hmem : ∀ b, b ∈ usedBytes sel ↔ b ∈ sel := fun b => mem_usedBytes
  generalize usedBytes sel = U at hU hmem
  have hget : ∀ i, (hi : i < U.length) → i ≤ (U[i]).toNat := by
    intro i
    induction i with
    | zero => intro _; omega
    | succ i ih =>
      intro hi
      have a := ih (by omega)
      have b := UInt8.lt_iff_toNat_lt.1 (List.pairwise_iff_getElem.1 hU i (i + 1) (by omega) hi (by omega))
      omega
  have key : ∀ i (hi : i < U.length), (U[i]).toNat = i := by
    intro i
    induction i using Nat.strongRecOn with
    | _ i ih =>
      intro hi
      have h0 := hget i hi
      by_cases he : (U[i]).toNat = i
      · exact he
      · exfalso
        have hi256 : i < 256 := by have := (U[i]).toNat_lt; omega
        have hlt : UInt8.ofNat i < U[i] := by
          rw [UInt8.lt_iff_toNat_lt, UInt8.toNat_ofNat_of_lt' hi256]
          omega
        have hm := (hmem _).2 (h U[i] ((hmem _).1 (List.getElem_mem hi)) _ hlt)
        obtain ⟨j, hj, hji⟩ := List.getElem_of_mem hm
        have hjt : (U[j]).toNat = i := by
          rw [hji, UInt8.toNat_ofNat_of_lt' hi256]
        have := hget j hj
        by_cases hji' : j < i
        · have := ih j hji' hj; omega
        · have : i = j := by omega
          subst this
          exact he hjt
  apply List.ext_getElem (by simp [allTables])
  intro i hi _
  apply UInt8.toNat_inj.1
  have := key i hi
  rw [this]
  simp only [allTables, List.getElem_map, List.getElem_range]
  rw [UInt8.toNat_ofNat_of_lt' (show i < 256 by have := (U[i]).toNat_lt; omega)]

/-- The encoder never fails on a block, whatever the statistics say, as long as they are workable. -/
theorem generateBlock_ok (dist : Distance) (strategy : Strategy) (nc : Nat) (hw : Workable dist strategy nc)
    (crc : BitVec 32) (rle : List UInt8) (hne : rle ≠ []) (hlen : rle.length + 1 < 2 ^ 20) :
    ∃ bits, generateBlockData dist strategy crc rle = Res.ok bits := by
  obtain ⟨last, ptr, b1, b2, b3⟩ := C30_bwt_never_fails rle hne
  obtain ⟨enc, m1, m2, m3, m4⟩ := mtf_spec last
  have hlast : last.length = rle.length := b2.length_eq
  have hlne : last ≠ [] := by intro h; rw [h] at hlast; exact hne (List.length_eq_zero_iff.1 hlast.symm)
  have hun : 1 ≤ (usedBytes last).length := by
    obtain ⟨x, hx⟩ := List.exists_mem_of_ne_nil last hlne
    exact List.length_pos_of_mem (mem_usedBytes.2 hx)
  obtain ⟨rep, f1, f2⟩ := hw (usedBytes last).length enc hun m4 (by omega)
  obtain ⟨tables, sel, t1, t2, t3⟩ := emitBlock_ok crc ptr (usedBytes last) (zleEncode 0 enc) rep hun
    (usedBytes_length last) f2.dims (by rw [f2.count]; exact f2.sel) f2.enough f2.fit
    (zleEncode_symOk _ hun enc m4)
  have h : generateBlockData dist strategy crc rle
      = emitBlock crc ptr (usedBytes last) (zleEncode 0 enc) rep := by
    simp only [generateBlockData, b1, Res.ok_bind, m1, f1]
  exact ⟨_, h.trans t3⟩

/-- The parts of a block, when the number of tables fits its field and the selectors have no gap. -/
theorem generateBlock_sound (dist : Distance) (strategy : Strategy) (nc : Nat) (h7 : nc < 8)
    (hw : Workable dist strategy nc) (crc : BitVec 32) (rle : List UInt8) (hne : rle ≠ [])
    (hlen : rle.length + 1 < 2 ^ 20)
    (hgood : ∀ zle rep, blockStats dist strategy rle = Res.ok (zle, rep) → NoGap rep.selectors) :
    ∃ p : BlockParts, p.rle = rle ∧ Sound p ∧ p.used ≠ [] ∧ (∃ zle rep, blockStats dist strategy rle = Res.ok (zle, rep) ∧
        p.syms.length = zle.length ∧ p.sel.length = rep.selectors.length) ∧ p.tables.length = nc ∧
      bwt rle = Res.ok (p.last, p.ptr) ∧ mtfDecode p.used (zleDecode 1 p.syms) = some p.last ∧
      (∀ ls ∈ p.tables, KraftEq 17 ls) ∧ p.used = usedBytes rle ∧ p.syms.length ≤ rle.length ∧
      (p.tableBits = p.tables.map fun ls => encodeCodeTable (canonTable ls)) ∧
      generateBlockData dist strategy crc rle = Res.ok (blockMagic ++ natToBits 32 crc.toNat ++ p.body) := by
  obtain ⟨last, ptr, b1, b2, b3⟩ := C30_bwt_never_fails rle hne
  obtain ⟨enc, m1, m2, m3, m4⟩ := mtf_spec last
  have hlast : last.length = rle.length := b2.length_eq
  have hlne : last ≠ [] := by intro h; rw [h] at hlast; exact hne (List.length_eq_zero_iff.1 hlast.symm)
  have hun : 1 ≤ (usedBytes last).length := by
    obtain ⟨x, hx⟩ := List.exists_mem_of_ne_nil last hlne
    exact List.length_pos_of_mem (mem_usedBytes.2 hx)
  have hu256 := usedBytes_length last
  have hzl := zleEncode_length 0 enc
  obtain ⟨rep, f1, f2⟩ := hw (usedBytes last).length enc hun m4 (by omega)
  have hst : blockStats dist strategy rle = Res.ok (zleEncode 0 enc, rep) := by
    simp only [blockStats, b1, Res.ok_bind, m1]
    exact f1
  have g1 := hgood (zleEncode 0 enc) rep hst
  have hz := zleEncode_symOk _ hun enc m4
  obtain ⟨tables, sel, t1, t2, t3⟩ := emitBlock_ok crc ptr (usedBytes last) (zleEncode 0 enc) rep hun hu256
    f2.dims (by rw [f2.count]; exact f2.sel) f2.enough f2.fit hz
  have hcount : tables.length = nc := by rw [t1.count, f2.count]
  have husel := usedBytes_noGap rep.selectors g1
  have hk : (usedBytes rep.selectors).length ≤ nc := by
    by_contra hk
    have hmem : UInt8.ofNat nc ∈ usedBytes rep.selectors := by
      rw [husel]
      exact List.mem_map.2 ⟨nc, List.mem_range.2 (by omega), rfl⟩
    have := f2.sel _ (mem_usedBytes.1 hmem)
    rw [UInt8.toNat_ofNat_of_lt' (show nc < 256 by omega)] at this
    omega
  have husedeq : usedBytes last = usedBytes rle := by
    unfold usedBytes
    congr 1
    funext b
    simp [b2.mem_iff]
  let p : BlockParts :=
    { rle := rle, last := last, ptr := ptr, used := usedBytes last,
      syms := (zleEncode 0 enc).map symbolIndex, tables := tables,
      tableBits := tables.map fun ls => encodeCodeTable (canonTable ls),
      sel := rep.selectors.map UInt8.toNat,
      selBits := (sel.map UInt8.toNat).flatMap unary }
  have hok : TablesOk (usedBytes last).length tables := t1.lengths
  have henough := f2.enough
  have hfit := f2.fit
  refine ⟨p, rfl, ?_, by intro h; simp only [p] at h; rw [h] at hun; simp at hun,
    ⟨_, _, hst, by simp [p], by simp [p]⟩, hcount, b1, ?_, t1.complete, husedeq, by simp only [p, List.length_map]; omega, rfl, ?_⟩
  · exact {
      ptr := by show ptr < _; omega
      used := usedBytes_pairwise last
      symbols := by
        intro s hs
        obtain ⟨x, hx, rfl⟩ := List.mem_map.1 hs
        have := (hz x hx).1
        simp only [p]
        omega
      numTables := by simp only [p]; omega
      lengths := fun ls hls => ⟨(t1.lengths ls hls).1, (t1.lengths ls hls).2.1⟩
      transmitted := tables_transmitted _ tables hok
      numSelectors := by simp only [p, List.length_map]; omega
      selected := by
        refine ⟨sel.map UInt8.toNat, ?_, rfl⟩
        rw [husel] at t2
        have h2 := congrArg (Option.map (List.map UInt8.toNat)) t2
        rw [← mtfDecode_map] at h2
        have h3 := mtfDecode_append _ ((List.range (nc - (usedBytes rep.selectors).length)).map
          ((usedBytes rep.selectors).length + ·)) _ _ h2
        have e : (allTables (usedBytes rep.selectors).length).map UInt8.toNat
            = List.range (usedBytes rep.selectors).length := by
          rw [allTables, map_toNat_ofNat _ (fun x hx => by have := List.mem_range.1 hx; omega)]
        rw [e, ← List.range_add, Nat.add_sub_cancel' hk] at h3
        simp only [p, hcount]
        exact h3
      enough := by simp only [p, List.length_map]; omega }
  · show mtfDecode (usedBytes last) (zleDecode 1 ((zleEncode 0 enc).map symbolIndex)) = some last
    rw [zleDecode_encode]
    simpa using m2
  · simp only [generateBlockData, b1, Res.ok_bind, m1, f1, t3]
    simp only [BlockParts.body, BlockParts.eob, p, hcount, List.length_map]
    rw [f2.count, convertToCodePadToNBits_eq nc 3 (by omega)]

/-- The parts of a block, when the number of tables fits its field, the selectors have no gap and there is
no surplus selector. -/
theorem generateBlock_parts (dist : Distance) (strategy : Strategy) (nc : Nat) (h7 : nc < 8)
    (hw : Workable dist strategy nc) (crc : BitVec 32) (rle : List UInt8) (hne : rle ≠ [])
    (hlen : rle.length + 1 < 2 ^ 20)
    (hgood : ∀ zle rep, blockStats dist strategy rle = Res.ok (zle, rep) →
      NoGap rep.selectors ∧ 50 * rep.selectors.length < zle.length + 51) :
    ∃ p : BlockParts, p.rle = rle ∧ Readable p ∧ p.tables.length = nc ∧
      bwt rle = Res.ok (p.last, p.ptr) ∧ mtfDecode p.used (zleDecode 1 p.syms) = some p.last ∧
      (∀ ls ∈ p.tables, KraftEq 17 ls) ∧ p.used = usedBytes rle ∧ p.syms.length ≤ rle.length ∧
      (p.tableBits = p.tables.map fun ls => encodeCodeTable (canonTable ls)) ∧
      generateBlockData dist strategy crc rle = Res.ok (blockMagic ++ natToBits 32 crc.toNat ++ p.body) := by
  obtain ⟨p, e1, e2, e3, ⟨zle, rep, s1, s2, s3⟩, e4⟩ := generateBlock_sound dist strategy nc h7 hw crc rle hne hlen
    fun zle rep h => (hgood zle rep h).1
  refine ⟨p, e1, ⟨e2.ptr, e2.used, e3, e2.symbols, e2.numTables, e2.lengths, e2.transmitted, e2.numSelectors,
    e2.selected, e2.enough, ?_⟩, e4⟩
  rw [s2, s3]
  exact (hgood zle rep s1).2

theorem single_workable (dist : Distance) : Workable dist Strategy.single 2 := by
  intro n enc h1 h2 h3
  obtain ⟨f, f1, f2⟩ := single_zle dist n h1 enc h2 h3
  have hl := zleEncode_length 0 enc
  refine ⟨_, f2, rfl, ?_, ?_, ?_, ?_⟩
  · intro x hx
    simp at hx
    rw [hx, f1]
  · intro s hs
    rw [List.eq_of_mem_replicate hs]
    simp
  · simp; omega
  · simp; omega

theorem single_good (dist : Distance) (rle : List UInt8) (hne : rle ≠ []) (hlen : rle.length + 1 < 2 ^ 20)
    (zle : List ZleSymbol) (rep : ReportedSymbols) (h : blockStats dist Strategy.single rle = Res.ok (zle, rep)) :
    NoGap rep.selectors ∧ 50 * rep.selectors.length < zle.length + 51 := by
  obtain ⟨last, ptr, b1, b2, b3⟩ := C30_bwt_never_fails rle hne
  obtain ⟨enc, m1, m2, m3, m4⟩ := mtf_spec last
  have hlast : last.length = rle.length := b2.length_eq
  have hlne : last ≠ [] := by intro h; rw [h] at hlast; exact hne (List.length_eq_zero_iff.1 hlast.symm)
  have hun : 1 ≤ (usedBytes last).length := by
    obtain ⟨x, hx⟩ := List.exists_mem_of_ne_nil last hlne
    exact List.length_pos_of_mem (mem_usedBytes.2 hx)
  obtain ⟨f, f1, f2⟩ := single_zle dist (usedBytes last).length hun enc m4 (by omega)
  simp only [blockStats, b1, Res.ok_bind, m1, f2, Res.ok.injEq, Prod.mk.injEq] at h
  obtain ⟨rfl, rfl⟩ := h
  refine ⟨?_, by simp; omega⟩
  intro s hs t ht
  rw [List.eq_of_mem_replicate hs] at ht
  exact absurd ht (by simp)

end Ribzip2
