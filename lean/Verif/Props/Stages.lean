import Mathlib.Data.List.Perm.Subperm
import Verif.Proofs.Zle
import Verif.Proofs.SymbolMap
import Verif.Proofs.Selectors
/- Property theorems C20, C21, C22, C26, C27, C38. -/
namespace Ribzip2
open Spec

/-! ### C20 -/

/-- **C20.** For every byte string the move-to-front stage succeeds, transmits exactly the set of
bytes used, in increasing order, emits one index per byte, each smaller than the number of distinct
bytes, and the library's inverse with the transmitted set gives the string back. -/
theorem C20_mtf_roundtrip (d : List UInt8) :
    ∃ enc, mtf d = Res.ok (enc, usedBytes d) ∧ inverseMtf enc (usedBytes d) = Res.ok d ∧
      enc.length = d.length ∧ ∀ i ∈ enc, i.toNat < (usedBytes d).length := by
  obtain ⟨enc, h1, h2, h3, h4⟩ := mtf_spec d
  refine ⟨enc, h1, ?_, h3, h4⟩
  rw [inverseMtf, inverseMtfLoop_spec _ _ (usedBytes_nodup d), h2]; rfl

/-- **C20**, against the specification of move-to-front coding: decoding the emitted positions by the
textbook rule gives the string back. -/
theorem C20_mtf_is_standard (d : List UInt8) :
    ∃ enc, mtf d = Res.ok (enc, usedBytes d) ∧
      mtfDecode (usedBytes d) (enc.map UInt8.toNat) = some d := by
  obtain ⟨enc, h1, h2, _⟩ := mtf_spec d
  exact ⟨enc, h1, h2⟩

example : mtf [98, 97, 97, 99, 98] = Res.ok ([1, 1, 0, 2, 2], [97, 98, 99]) := by decide +kernel
example : inverseMtf [1, 1, 0, 2, 2] [97, 98, 99] = Res.ok [98, 97, 97, 99, 98] := by decide +kernel

/-! ### C21 -/

/-- **C21.** Whatever the reporter (table strategy), if the zero-run stage succeeds its symbols decode
to the input, for every input that fits a `Vec` (at most `isize::MAX` bytes). -/
theorem C21_zle_roundtrip {σ : Type} (rep : SymbolReporter σ) (s0 : σ) (d : List UInt8)
    (syms : List ZleSymbol) (r : ReportedSymbols) (hlen : d.length + 1 ≤ 2 ^ 63)
    (h : zleTransform rep s0 d = Res.ok (syms, r)) : decodeZle syms = Res.ok d := by
  rw [zleTransform_eq] at h
  cases h1 : reportAll rep s0 (zleEncode 0 d ++ [ZleSymbol.runA]) <;> rw [h1] at h <;>
    simp only [Res.ok_bind, Res.err_bind, Res.panic_bind, Res.div_bind, reduceCtorEq] at h
  rename_i s
  cases h2 : rep.finalize s <;> rw [h2] at h <;> simp at h
  rw [← h.1]
  exact decodeZle_encode d hlen

/-- **C21**, against the specification of the RUNA/RUNB code (bijective base 2). -/
theorem C21_zle_is_standard {σ : Type} (rep : SymbolReporter σ) (s0 : σ) (d : List UInt8)
    (syms : List ZleSymbol) (r : ReportedSymbols)
    (h : zleTransform rep s0 d = Res.ok (syms, r)) :
    zleDecode 1 (syms.map symbolIndex) = d.map UInt8.toNat := by
  rw [zleTransform_eq] at h
  cases h1 : reportAll rep s0 (zleEncode 0 d ++ [ZleSymbol.runA]) <;> rw [h1] at h <;>
    simp only [Res.ok_bind, Res.err_bind, Res.panic_bind, Res.div_bind, reduceCtorEq] at h
  rename_i s
  cases h2 : rep.finalize s <;> rw [h2] at h <;> simp at h
  rw [← h.1]
  simpa using zleDecode_encode 0 d

/-- The hypothesis of the C21 theorems is met: the single-table reporter. -/
example : ∃ r, zleTransform singleReporter (SingleMap.create 3) [0, 0, 0, 0, 2, 0, 1] =
    Res.ok ([ZleSymbol.runB, ZleSymbol.runA, ZleSymbol.number 2, ZleSymbol.runA, ZleSymbol.number 1], r) :=
  ⟨⟨[[3, 1, 1, 1], [3, 1, 1, 1]], [0]⟩, by decide +kernel⟩

/-! ### C22 -/

/-- **C22.** For every set `U` of bytes (given in increasing order), a reader positioned at the
transmitted symbol map of `U` reads back exactly `U` and is then positioned right behind it. -/
theorem C22_symbol_map_roundtrip (U : List UInt8) (hU : U.Pairwise (· < ·)) (br : BitReader)
    (rest : List Bit) (hbr : br.bits = getSymbolTable U ++ rest) :
    ∃ br', readSymbolTable br = Res.ok (U, br') ∧ br'.bits = rest := by
  have h := absR_readSymbolTable br
  rw [hbr, getSymbolTable_eq, pSymbolTable_map, usedBytes_of_sorted U hU] at h
  obtain ⟨br', h1, h2⟩ := absR_eq_ok h
  exact ⟨br', h1, h2⟩

/-- **C22**, against the format: the bits written are the two-level map of the format. -/
theorem C22_symbol_map_is_standard (U : List UInt8) : getSymbolTable U = symbolMapBits U :=
  getSymbolTable_eq U

example : ([0, 97, 98, 255] : List UInt8).Pairwise (· < ·) := by decide
/-- A reader at such a position exists: the map padded to bytes (here 64 bits). -/
example : ∃ bs : List UInt8, (BitReader.fromReader (Reader.ofBytes bs)).bits =
    getSymbolTable [0, 97, 98, 255] ++ [] :=
  ⟨[0x82, 0x01, 0x80, 0x00, 0x60, 0x00, 0x00, 0x01], by decide +kernel⟩

/-! ### C26 -/

/-- **C26.** For every non-empty sequence of code lengths whose first is below 32, a reader positioned
at its transmission reads the same sequence back and is then positioned right behind it. -/
theorem C26_code_lengths_roundtrip (l : UInt8) (ls : List UInt8) (hl : l.toNat < 32) (br : BitReader)
    (rest : List Bit) (hbr : br.bits = encodeBitLengths (l :: ls) ++ rest) :
    ∃ br', readDelta br (l :: ls).length = Res.ok (l :: ls, br') ∧ br'.bits = rest := by
  have h := absR_readDelta (l :: ls).length br
  have ht := encodeBitLengths_table 0 255 l ls hl (fun x _ => ⟨by omega, by
    have := x.toNat_lt; omega⟩)
  have h2 := pDelta_table ht (by simp) rest
  rw [List.length_map, map_ofNat_toNat] at h2
  rw [hbr, h2] at h
  obtain ⟨br', h1, h2⟩ := absR_eq_ok h
  exact ⟨br', h1, h2⟩

/-- **C26**, against the format: when all lengths are within the format's 1..20, the transmission is
one the format allows (all intermediate values within 1..20 too), and every other transmission the
format allows is read correctly as well. -/
theorem C26_code_lengths_are_standard (l : UInt8) (ls : List UInt8)
    (h : ∀ x ∈ l :: ls, 1 ≤ x.toNat ∧ x.toNat ≤ 20) :
    LengthTable 1 20 ((l :: ls).map UInt8.toNat) (encodeBitLengths (l :: ls)) :=
  encodeBitLengths_table 1 20 l ls (by have := h l (by simp); omega) h

theorem C26_any_transmission_is_read (ls : List Nat) (bits : List Bool) (hne : ls ≠ [])
    (h : LengthTable 1 20 ls bits) (br : BitReader) (rest : List Bit)
    (hbr : br.bits = bits ++ rest) :
    ∃ br', readDelta br ls.length = Res.ok (ls.map UInt8.ofNat, br') ∧ br'.bits = rest := by
  have h1 := absR_readDelta ls.length br
  rw [hbr, pDelta_table h hne] at h1
  obtain ⟨br', g1, g2⟩ := absR_eq_ok h1
  exact ⟨br', g1, g2⟩

/-- Concrete transmission: lengths 2, 4, 3, 1. -/
example : encodeBitLengths [2, 4, 3, 1] = [false, false, false, true, false, false,
    true, false, true, false, false, true, true, false, true, true, true, true, false] := by decide +kernel

/-- A transmission that wanders (2, up, down, stop) is also allowed. -/
example : LengthTable 1 20 [2] [false, false, false, true, false, true, false, true, true, false] :=
  ⟨2, _, by decide, rfl, LengthsFrom.cons (b2 := []) (LengthSteps.inc (by decide) (by decide)
    (LengthSteps.dec (by decide) (by decide) (LengthSteps.done (by decide) (by decide)))) LengthsFrom.nil⟩

/-! ### C27 -/

/-- What the decoder makes of transmitted selectors: `readUnary` then `inverse_mtf` over the list of
all tables (block_decoder.rs:31-34). -/
def readSelectors (br : BitReader) (numTables amount : Nat) : Res (List UInt8 × BitReader) := do
  let (enc, br) ← readUnary br amount
  let sel ← inverseMtf enc (allTables numTables)
  pure (sel, br)

/-- Reading back what `create_selectors` wrote gives the selectors renumbered by rank: the i-th
smallest used table becomes `i`. -/
theorem readSelectors_renumbered (sel : List UInt8) (n : Nat) (hn : n ≤ 256) (hne : sel ≠ [])
    (hsel : (usedBytes sel).length ≤ n) (bits : List Bit) (cnt : Nat)
    (hc : createSelectors sel = Res.ok (bits, cnt)) (br : BitReader) (rest : List Bit)
    (hbr : br.bits = bits ++ rest) :
    ∃ (sel' : List Nat) (br' : BitReader), (∀ i ∈ sel', i < (usedBytes sel).length) ∧
      sel'.map (fun i => (usedBytes sel).getD i 0) = sel ∧
      readSelectors br n cnt = Res.ok (sel'.map UInt8.ofNat, br') ∧ br'.bits = rest := by
  obtain ⟨enc, h1, h2, h3⟩ := createSelectors_eq sel
  rw [h1] at hc
  simp only [Res.ok.injEq, Prod.mk.injEq] at hc
  obtain ⟨rfl, rfl⟩ := hc
  have hu : usedBytes sel = (List.range (usedBytes sel).length).map (fun i => (usedBytes sel).getD i 0) := by
    apply List.ext_getElem?
    intro i
    by_cases hi : i < (usedBytes sel).length
    · simp [hi]
    · rw [List.getElem?_eq_none (by omega), List.getElem?_eq_none (by simp; omega)]
  rw [hu, mtfDecode_map] at h2
  cases h4 : mtfDecode (List.range (usedBytes sel).length) (enc.map UInt8.toNat) with
  | none => rw [h4] at h2; simp at h2
  | some sel' =>
    rw [h4] at h2
    simp only [Option.map_some, Option.some.injEq] at h2
    have h5 : mtfDecode (List.range n) (enc.map UInt8.toNat) = some sel' := by
      have := mtfDecode_append _ (List.range' (usedBytes sel).length (n - (usedBytes sel).length)) _ _ h4
      have e : List.range n = List.range (usedBytes sel).length ++
          List.range' (usedBytes sel).length (n - (usedBytes sel).length) := by
        rw [List.range_eq_range', List.range_eq_range']
        have := List.range'_append (s := 0) (m := (usedBytes sel).length)
          (n := n - (usedBytes sel).length) (step := 1)
        rw [Nat.one_mul, Nat.zero_add] at this
        rw [this, Nat.add_sub_cancel' hsel]
      rw [e]; exact this
    have hsb : SelectorBits n sel' (unaryCode enc) := ⟨_, h5, unaryCode_eq enc⟩
    have hl : sel'.length = sel.length := by
      have := mtfDecode_length _ _ _ h5
      rw [List.length_map] at this; omega
    have hne' : sel' ≠ [] := by
      intro e; subst e
      simp at hl
      exact hne (List.eq_nil_of_length_eq_zero hl.symm)
    obtain ⟨enc', g1, g2⟩ := pUnary_selectorBits hsb hn hne' rest
    have g3 := absR_readUnary sel'.length br
    rw [hbr, g1] at g3
    obtain ⟨br', g4, g5⟩ := absR_eq_ok g3
    refine ⟨sel', br', ?_, h2, ?_, g5⟩
    · intro i hi
      simpa using mtfDecode_mem _ _ _ h4 i hi
    · simp only [readSelectors]
      rw [← hl, g4]
      simp [g2]

/-- **C27**, the exact extent to which it holds: the selectors are read back iff the tables used are
`0 .. k-1` without a gap. -/
theorem C27_selectors_roundtrip_iff_no_gap (sel : List UInt8) (n : Nat) (hn : n ≤ 256) (hne : sel ≠ [])
    (hsel : ∀ s ∈ sel, s.toNat < n) (bits : List Bit) (cnt : Nat)
    (hc : createSelectors sel = Res.ok (bits, cnt)) (br : BitReader) (rest : List Bit)
    (hbr : br.bits = bits ++ rest) :
    ∃ sel₂ br', readSelectors br n cnt = Res.ok (sel₂, br') ∧ br'.bits = rest ∧
      (sel₂ = sel ↔ ∀ s ∈ sel, ∀ t : UInt8, t < s → t ∈ sel) := by
  have hlen : (usedBytes sel).length ≤ n := by
    have hsub : (usedBytes sel).map UInt8.toNat ⊆ List.range n := by
      intro x hx
      obtain ⟨b, hb, rfl⟩ := List.mem_map.1 hx
      exact List.mem_range.2 (hsel b (mem_usedBytes.1 hb))
    have hnd : ((usedBytes sel).map UInt8.toNat).Nodup := by
      rw [List.Nodup, List.pairwise_map]
      exact (usedBytes_nodup sel).imp (fun h e => h (UInt8.toNat_inj.1 e))
    have := (List.subperm_of_subset hnd hsub).length_le
    simpa using this
  obtain ⟨sel', br', h1, h2, h3, h4⟩ := readSelectors_renumbered sel n hn hne hlen bits cnt hc br rest hbr
  refine ⟨_, br', h3, h4, ?_⟩
  have hU := usedBytes_pairwise sel
  generalize hu : usedBytes sel = U at *
  have hmem : ∀ b, b ∈ U ↔ b ∈ sel := fun b => by rw [← hu]; exact mem_usedBytes
  have hget : ∀ i, (hi : i < U.length) → i ≤ (U[i]).toNat := by
    intro i
    induction i with
    | zero => intro _; omega
    | succ i ih =>
      intro hi
      have a := ih (by omega)
      have b := UInt8.lt_iff_toNat_lt.1 (List.pairwise_iff_getElem.1 hU i (i + 1) (by omega) hi (by omega))
      omega
  constructor
  · intro e s hs t ht
    have key : ∀ i ∈ sel', ∀ hi : i < U.length, (U[i]).toNat = i := by
      intro i hi hiU
      have e2 : sel'.map (fun i => U.getD i 0) = sel'.map UInt8.ofNat := by rw [h2, e]
      have := List.map_inj_left.1 e2 i hi
      simp only [List.getD_eq_getElem?_getD, List.getElem?_eq_getElem hiU, Option.getD_some] at this
      rw [this, UInt8.toNat_ofNat_of_lt' (show i < 256 by omega)]
    obtain ⟨j, hj, hjs⟩ := List.getElem_of_mem ((hmem s).2 hs)
    have hjsel : j ∈ sel' := by
      rw [← h2] at hs
      obtain ⟨i, hi, hi2⟩ := List.mem_map.1 hs
      have hiU := h1 i hi
      simp only [List.getD_eq_getElem?_getD, List.getElem?_eq_getElem hiU, Option.getD_some] at hi2
      have : i = j := by
        rcases Nat.lt_trichotomy i j with h | h | h
        · have := UInt8.lt_iff_toNat_lt.1 (List.pairwise_iff_getElem.1 hU i j hiU hj h)
          rw [hi2, hjs] at this; omega
        · exact h
        · have := UInt8.lt_iff_toNat_lt.1 (List.pairwise_iff_getElem.1 hU j i hj hiU h)
          rw [hi2, hjs] at this; omega
      rw [← this]; exact hi
    have hsj : s.toNat = j := by rw [← hjs]; exact key j hjsel hj
    have htj := UInt8.lt_iff_toNat_lt.1 ht
    -- between consecutive used tables there is no room: U[i] = i for all i ≤ j
    have hall : ∀ k, ∀ i (hi : i < U.length), j - i = k → i ≤ j → (U[i]).toNat = i := by
      intro k
      induction k with
      | zero =>
        intro i hi hk hij
        have : i = j := by omega
        subst this; exact key _ hjsel hi
      | succ k ih =>
        intro i hi hk hij
        have h' := ih (i + 1) (by omega) (by omega) (by omega)
        have a := UInt8.lt_iff_toNat_lt.1
          (List.pairwise_iff_getElem.1 hU i (i + 1) hi (by omega) (by omega))
        have b := hget i hi
        omega
    have := hall (j - t.toNat) t.toNat (by omega) rfl (by omega)
    have e : U[t.toNat]'(by omega) = t := UInt8.toNat_inj.1 this
    rw [← hmem, ← e]
    exact List.getElem_mem _
  · intro hgap
    conv => rhs; rw [← h2]
    apply List.map_congr_left
    intro i hi
    have hiU := h1 i hi
    simp only [List.getD_eq_getElem?_getD, List.getElem?_eq_getElem hiU, Option.getD_some]
    apply UInt8.toNat_inj.1
    have hi256 : i < 256 := by have := hget i hiU; have := (U[i]).toNat_lt; omega
    rw [UInt8.toNat_ofNat_of_lt' hi256]
    -- U[i] = i since all smaller tables are in U
    have key : ∀ i (hi : i < U.length), (U[i]).toNat = i := by
      intro i
      induction i using Nat.strongRecOn with
      | _ i ih =>
        intro hi
        have h0 := hget i hi
        by_cases he : (U[i]).toNat = i
        · exact he
        · exfalso
          have hlt : UInt8.ofNat i < U[i] := by
            rw [UInt8.lt_iff_toNat_lt, UInt8.toNat_ofNat_of_lt' (show i < 256 by
              have := (U[i]).toNat_lt; omega)]
            omega
          have hm := (hmem _).2 (hgap U[i] ((hmem _).1 (List.getElem_mem hi)) _ hlt)
          obtain ⟨j, hj, hji⟩ := List.getElem_of_mem hm
          have hjt : (U[j]).toNat = i := by
            rw [hji, UInt8.toNat_ofNat_of_lt' (show i < 256 by have := (U[i]).toNat_lt; omega)]
          have := hget j hj
          by_cases hji' : j < i
          · have := ih j hji' hj; omega
          · have : i = j := by omega
            subst this
            exact he hjt
    exact (key i hiU).symm

/-- A gap: table 1 of three is not used, the selectors come back changed. -/
example : createSelectors [0, 2, 0] = Res.ok ([false, true, false, true, false], 3) ∧
    (∀ s ∈ ([0, 2, 0] : List UInt8), s.toNat < 3) ∧
    (BitReader.fromReader (Reader.ofBytes [0x50])).bits = [false, true, false, true, false] ++ [false, false, false] := by
  decide +kernel

/-- **C27 is false** as stated: two tables `0` and `2` of three are used, the decoder reads `0` and
`1` (the whole transmission is one byte, 0x50 = 0 10 10 0...). -/
theorem C27_refuted : ∃ (sel sel₂ : List UInt8) (bits : List Bit) (br br' : BitReader),
    createSelectors sel = Res.ok (bits, 3) ∧ (∀ s ∈ sel, s.toNat < 3) ∧
    br.bits = bits ++ [false, false, false] ∧ readSelectors br 3 3 = Res.ok (sel₂, br') ∧ sel₂ ≠ sel :=
  ⟨[0, 2, 0], [0, 1, 0], [false, true, false, true, false],
    BitReader.fromReader (Reader.ofBytes [0x50]), ⟨[], 5, some 0x50⟩,
    by decide +kernel, by decide, by decide +kernel, by decide +kernel, by decide⟩

/-- **C27**, positive part in the terms of the property: without gaps the selectors come back.
Missing: selector sequences that leave out a table but use a later one (`C27_refuted`). -/
theorem C27_selectors_roundtrip_partial (sel : List UInt8) (n : Nat) (hn : n ≤ 256) (hne : sel ≠ [])
    (hsel : ∀ s ∈ sel, s.toNat < n) (hgap : ∀ s ∈ sel, ∀ t : UInt8, t < s → t ∈ sel)
    (bits : List Bit) (cnt : Nat)
    (hc : createSelectors sel = Res.ok (bits, cnt)) (br : BitReader) (rest : List Bit)
    (hbr : br.bits = bits ++ rest) :
    ∃ br', readSelectors br n cnt = Res.ok (sel, br') ∧ br'.bits = rest := by
  obtain ⟨s2, br', h1, h2, h3⟩ :=
    C27_selectors_roundtrip_iff_no_gap sel n hn hne hsel bits cnt hc br rest hbr
  rw [h3.2 hgap] at h1
  exact ⟨br', h1, h2⟩

/-- The hypotheses of the C27 theorems are met. -/
example : createSelectors [0, 1, 1, 0] = Res.ok ([false, true, false, false, true, false], 4) := by
  decide +kernel
example : ∀ s ∈ ([0, 1, 1, 0] : List UInt8), ∀ t : UInt8, t < s → t ∈ ([0, 1, 1, 0] : List UInt8) := by
  intro s hs t ht
  have h := UInt8.lt_iff_toNat_lt.1 ht
  have hs1 : s.toNat ≤ 1 := by
    simp at hs; rcases hs with rfl | rfl | rfl <;> decide
  have : t = 0 := UInt8.toNat_inj.1 (by show t.toNat = 0; omega)
  subst this; decide

/-! ### C38 -/

/-- Write groups of bits one after the other. -/
def writeGroups : BitWriter → List (List Bit) → BitWriter × Res Unit
  | bw, [] => (bw, Res.ok ())
  | bw, g :: gs => match bw.writeBits g with
    | (bw, Res.ok _) => writeGroups bw gs
    | (bw, r) => (bw, r)

/-- Reads of the given sizes, one after the other. -/
def readGroupsOfSizes : BitReader → List Nat → Res (List (List Bit) × BitReader)
  | br, [] => Res.ok ([], br)
  | br, n :: ns => do
    let (g, br) ← br.readBits n
    let (gs, br) ← readGroupsOfSizes br ns
    pure (g :: gs, br)

theorem writeGroups_good (bw : BitWriter) (gs : List (List Bit)) (h : bw.Good) :
    ∃ bw', writeGroups bw gs = (bw', Res.ok ()) ∧ bw'.Good ∧ bw'.bits = bw.bits ++ gs.flatten := by
  induction gs generalizing bw with
  | nil => exact ⟨bw, rfl, h, by simp⟩
  | cons g gs ih =>
    obtain ⟨b1, h1, h2, h3⟩ := bw.writeBits_good g h
    obtain ⟨b2, g1, g2, g3⟩ := ih b1 h2
    refine ⟨b2, ?_, g2, by rw [g3, h3]; simp⟩
    simp only [writeGroups, h1, g1]

/-- **C38** (writing). Writing any groups of bits to a reliable writer and finalizing succeeds; the
bytes produced spell exactly those bits, then fewer than 8 zero bits. -/
theorem C38_written_bits (gs : List (List Bit)) :
    ∃ bw bw', writeGroups (BitWriter.fromWriter Writer.empty) gs = (bw, Res.ok ()) ∧
      bw.finalize = (bw', Res.ok ()) ∧ PaddedTo8 gs.flatten (bytesBits bw'.w.out) := by
  obtain ⟨bw, h1, h2, h3⟩ := writeGroups_good (BitWriter.fromWriter Writer.empty) gs
    (BitWriter.good_from [])
  obtain ⟨bw', g1, g2⟩ := bw.finalize_good h2
  refine ⟨bw, bw', h1, g1, ?_⟩
  rw [h3] at g2
  simpa [BitWriter.bits, BitWriter.fromWriter, Writer.empty, bytesBits] using g2

theorem readGroupsOfSizes_spec (br : BitReader) (ns : List Nat) :
    (ns.sum ≤ br.bits.length → ∃ gs br', readGroupsOfSizes br ns = Res.ok (gs, br') ∧
      gs.map List.length = ns ∧ br.bits = gs.flatten ++ br'.bits) ∧
    (br.bits.length < ns.sum → readGroupsOfSizes br ns = Res.err) := by
  induction ns generalizing br with
  | nil => exact ⟨fun _ => ⟨[], br, rfl, rfl, by simp⟩, by simp⟩
  | cons n ns ih =>
    have h := absR_readBits n br
    by_cases hn : n ≤ br.bits.length
    · rw [takeBits, if_pos hn] at h
      obtain ⟨br', h1, h2⟩ := absR_eq_ok h
      obtain ⟨ih1, ih2⟩ := ih br'
      have hl : br'.bits.length = br.bits.length - n := by rw [h2]; simp
      constructor
      · intro hs
        simp only [List.sum_cons] at hs
        obtain ⟨gs, br2, g1, g2, g3⟩ := ih1 (by omega)
        refine ⟨br.bits.take n :: gs, br2, ?_, ?_, ?_⟩
        · simp only [readGroupsOfSizes, h1, Res.ok_bind, g1, Res.pure_eq]
        · simp [g2]; omega
        · rw [List.flatten_cons, List.append_assoc, ← g3, h2, List.take_append_drop]
      · intro hs
        simp only [List.sum_cons] at hs
        simp only [readGroupsOfSizes, h1, Res.ok_bind, ih2 (by omega), Res.err_bind]
    · rw [takeBits, if_neg hn] at h
      have h1 : br.readBits n = Res.err := by
        cases hh : br.readBits n with
        | ok a => obtain ⟨a, b⟩ := a; rw [hh] at h; simp [absR] at h
        | err => rfl
        | panic => rw [hh] at h; simp [absR] at h
        | div => rw [hh] at h; simp [absR] at h
      constructor
      · intro hs; simp only [List.sum_cons] at hs; omega
      · intro _; simp only [readGroupsOfSizes, h1, Res.err_bind]

/-- **C38** (reading). From any reader that delivers the bytes `bs` (whatever the sizes of its reads
and the interruptions between them), reads of sizes `ns` return consecutive groups of the bits of
`bs`, of exactly those sizes, as long as there are enough bits; otherwise the result is an error. -/
theorem C38_read_bits (r : Reader) (bs : List UInt8) (hr : delivered r.events = bs) (ns : List Nat) :
    (ns.sum ≤ 8 * bs.length → ∃ gs br', readGroupsOfSizes (BitReader.fromReader r) ns = Res.ok (gs, br') ∧
      gs.map List.length = ns ∧ gs.flatten = (bytesBits bs).take ns.sum) ∧
    (8 * bs.length < ns.sum → readGroupsOfSizes (BitReader.fromReader r) ns = Res.err) := by
  have hb : (BitReader.fromReader r).bits = bytesBits bs := by
    simp [BitReader.bits, BitReader.fromReader, hr]
  have hl : (bytesBits bs).length = 8 * bs.length := by simp
  obtain ⟨h1, h2⟩ := readGroupsOfSizes_spec (BitReader.fromReader r) ns
  rw [hb, hl] at h1 h2
  refine ⟨fun hs => ?_, h2⟩
  obtain ⟨gs, br', g1, g2, g3⟩ := h1 hs
  refine ⟨gs, br', g1, g2, ?_⟩
  have : gs.flatten.length = ns.sum := by rw [List.length_flatten, g2]
  rw [g3, ← this, List.take_left]

/-- **C38** (round trip). What is read, in groups of any sizes `ns` that cover what was written, is
what was written, in order, followed only by zero bits (fewer than 8). -/
theorem C38_bits_roundtrip (written : List (List Bit)) (ns : List Nat) (bw bw' : BitWriter)
    (hw : writeGroups (BitWriter.fromWriter Writer.empty) written = (bw, Res.ok ()))
    (hf : bw.finalize = (bw', Res.ok ()))
    (r : Reader) (hr : delivered r.events = bw'.w.out) :
    (ns.sum ≤ written.flatten.length → ∃ gs br',
      readGroupsOfSizes (BitReader.fromReader r) ns = Res.ok (gs, br') ∧
      gs.map List.length = ns ∧ gs.flatten <+: written.flatten) ∧
    (written.flatten.length + 8 ≤ ns.sum → readGroupsOfSizes (BitReader.fromReader r) ns = Res.err) ∧
    (∀ gs br', readGroupsOfSizes (BitReader.fromReader r) ns = Res.ok (gs, br') →
      ∃ k, k < 8 ∧ gs.flatten <+: written.flatten ++ List.replicate k false) := by
  obtain ⟨b1, b2, h1, h2, h3⟩ := C38_written_bits written
  rw [hw] at h1
  simp only [Prod.mk.injEq, and_true] at h1
  subst h1
  rw [hf] at h2
  simp only [Prod.mk.injEq, and_true] at h2
  subst h2
  obtain ⟨k, hk, e, _⟩ := h3
  obtain ⟨g1, g2⟩ := C38_read_bits r _ hr ns
  have hl : 8 * bw'.w.out.length = written.flatten.length + k := by
    have := congrArg List.length e
    rw [show (bytesBits bw'.w.out).length = 8 * bw'.w.out.length by simp, List.length_append,
      List.length_replicate] at this
    exact this
  refine ⟨fun hs => ?_, fun hs => g2 (by omega), ?_⟩
  · obtain ⟨gs, br', a1, a2, a3⟩ := g1 (by omega)
    refine ⟨gs, br', a1, a2, ?_⟩
    rw [a3, e, List.take_append_of_le_length hs]
    exact List.take_prefix _ _
  · intro gs br' hgs
    by_cases hs : ns.sum ≤ 8 * bw'.w.out.length
    · obtain ⟨gs', br2, a1, a2, a3⟩ := g1 hs
      rw [a1] at hgs
      simp only [Res.ok.injEq, Prod.mk.injEq] at hgs
      refine ⟨k, hk, ?_⟩
      rw [← hgs.1, a3, e]
      exact List.take_prefix _ _
    · rw [g2 (by omega)] at hgs
      simp at hgs

/-- Concrete round trip: 13 bits written in groups of 3, 0 and 10, read in groups of 5 and 8. -/
example : (writeGroups (BitWriter.fromWriter Writer.empty)
    [[true, false, true], [], [true, true, false, false, true, true, false, true, false, true]]).1.finalize.1.w.out
    = [0xB9, 0xA8] := by decide +kernel
example : (readGroupsOfSizes (BitReader.fromReader
    ⟨[REvent.data [0xB9], REvent.intr, REvent.data [0xA8]], false⟩) [5, 8]).isOk = true := by decide +kernel

end Ribzip2
