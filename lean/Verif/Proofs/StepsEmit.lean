import Verif.Proofs.StepsHuffman
import Verif.Proofs.StepsStats
import Verif.Props.Steps
/- The number of steps it takes to write a block. -/
namespace Ribzip2
open Spec Cost

theorem canonTable_code_le (ls : List Nat) (B : Nat) (h : ∀ l ∈ ls, l ≤ B) : ∀ e ∈ canonTable ls, e.code.length ≤ B := by
  intro e he
  unfold canonTable at he
  obtain ⟨i, hi, rfl⟩ := List.mem_map.1 he
  have hi : i < ls.length := List.mem_range.1 hi
  simp only [codeBits_length]
  rw [len, List.getD_eq_getElem?_getD, List.getElem?_eq_getElem hi, Option.getD_some]
  exact h _ (List.getElem_mem hi)

theorem canonTable_length (ls : List Nat) : (canonTable ls).length = ls.length := by simp [canonTable]

/-! ### selectors.rs -/

theorem usedBytes_length_le_bound (sel : List UInt8) (n : Nat) (h : ∀ s ∈ sel, s.toNat < n) :
    (usedBytes sel).length ≤ n := by
  have hn : ((usedBytes sel).map UInt8.toNat).Nodup :=
    List.Nodup.map (fun a b e => UInt8.toNat_inj.1 e) (usedBytes_nodup sel)
  have hs : (usedBytes sel).map UInt8.toNat ⊆ List.range n := by
    intro x hx
    obtain ⟨b, hb, rfl⟩ := List.mem_map.1 hx
    exact List.mem_range.2 (h b (mem_usedBytes.1 hb))
  have := (hn.subperm hs).length_le
  simpa using this

theorem createSelectorsC_runs (sel : List UInt8) (u : Nat) (hu : (usedBytes sel).length = u) (r : List Bit × Nat)
    (h : createSelectors sel = Res.ok r) :
    RunsIn (createSelectorsC sel) r (sel.length * (3 * u + 3) + (512 + u + u * u)) ∧ r.1.length ≤ sel.length * u := by
  obtain ⟨enc, h1, h2, h3, h4⟩ := mtf_spec sel
  simp only [createSelectors, h1, Res.ok_bind, Res.pure_eq, Res.ok.injEq] at h
  subst h
  have hlen : (unaryCode enc).length ≤ sel.length * u := by
    have := flatMap_length_le (fun selector : UInt8 => List.replicate selector.toNat true ++ [false]) u enc (by
      intro x hx
      have := h4 x hx
      simp
      omega)
    rw [h3, Nat.mul_comm] at this
    exact this
  refine ⟨?_, hlen⟩
  have r1 := mtfC_runs sel enc (usedBytes sel) h1 u hu
  rw [createSelectorsC]
  refine RunsIn.mono (runs_bind r1 (runs_ticked (runs_pure _))) ?_
  have e : sel.length * (3 * u + 3) = sel.length * (2 + 2 * u) + sel.length + sel.length * u := by ring
  omega

/-! ### symbol_map.rs, code_table.rs -/

theorem getSymbolTableC_runs (used : List UInt8) :
    RunsIn (getSymbolTableC used) (getSymbolTable used)
      (2 * (used.length * used.length) + 3 * used.length + 832) ∧ (getSymbolTable used).length ≤ 272 := by
  have hl : (getSymbolTable used).length ≤ 272 := by rw [getSymbolTable_eq]; exact symbolMapBits_length_le _
  refine ⟨?_, hl⟩
  rw [getSymbolTableC]
  refine RunsIn.mono (runs_ticked (runs_ticked (runs_ticked (runs_pure _)))) ?_
  omega

theorem length_le_flatMap_deltaBits (ds : List DeltaSymbol) : ds.length ≤ (ds.flatMap deltaBits).length := by
  induction ds with
  | nil => simp
  | cons d ds ih =>
    rw [List.flatMap_cons, List.length_append, List.length_cons]
    have : 1 ≤ (deltaBits d).length := by cases d <;> simp [deltaBits]
    omega

theorem encodeCodeTableC_runs (ls : List Nat) (m : Nat) (hm : ls.length = m) (h : ∀ l ∈ ls, 1 ≤ l ∧ l ≤ 17) :
    RunsIn (encodeCodeTableC (canonTable ls)) (encodeCodeTable (canonTable ls)) (153 * m + 15) := by
  have hl := encodeCodeTable_length ls 17 (by omega) h
  have hsum : ((canonTable ls).map (fun e => 2 + e.code.length)).sum ≤ 19 * m := by
    rw [← hm, ← canonTable_length ls]
    have := canonTable_code_le ls 17 fun l hl => (h l hl).2
    generalize canonTable ls = T at this
    induction T with
    | nil => simp
    | cons e T ih =>
      have h1 := ih fun x hx => this x (by simp [hx])
      have h2 := this e (by simp)
      simp only [List.map_cons, List.sum_cons, List.length_cons]
      omega
  rw [encodeCodeTable] at hl ⊢
  rw [encodeCodeTableC]
  have hml : ((canonTable ls).map (fun e => UInt8.ofNat e.code.length)).length = m := by simp [canonTable_length, hm]
  have hfirst : ∀ x ∈ (canonTable ls).map (fun e => UInt8.ofNat e.code.length), x.toNat < 2 ^ 5 := by
    intro x hx
    rw [canonTable_lengths] at hx
    obtain ⟨y, hy, rfl⟩ := List.mem_map.1 hx
    have := h y hy
    rw [UInt8.toNat_ofNat_of_lt' (by show y < 256; omega)]
    omega
  generalize (canonTable ls).map (fun e => UInt8.ofNat e.code.length) = cl at *
  suffices hx : RunsIn (encodeBitLengthsC cl) (encodeBitLengths cl) (134 * m + 15) from
    RunsIn.mono (runs_ticked hx) (by omega)
  match cl, hml, hfirst, hl with
  | [], hml, _, _ => exact (runs_ticked (runs_pure _)).mono (by simp)
  | v :: rest, hml, hfirst, hl =>
    have hd : encodeDelta (v :: rest) = some (v, DeltaSymbol.stop :: deltaLoop v rest) := rfl
    rw [encodeBitLengths, hd] at hl ⊢
    rw [encodeBitLengthsC, hd]
    dsimp only at hl ⊢
    have hh : (convertToCodePadToNBits v.toNat 5).length = 5 := by
      rw [convertToCodePadToNBits_eq _ 5 (hfirst v (by simp)), natToBits_length]
    rw [List.length_append, hh, hm] at hl
    have hdl := length_le_flatMap_deltaBits (DeltaSymbol.stop :: deltaLoop v rest)
    refine RunsIn.mono (runs_ticked (runs_ticked (runs_ticked (runs_pure _)))) ?_
    rw [hml, hh]
    omega

theorem encodeCodeTablesC_runs (m : Nat) (tables : List (List Nat))
    (ht : ∀ ls ∈ tables, ls.length = m ∧ ∀ l ∈ ls, 1 ≤ l ∧ l ≤ 17) :
    RunsIn (encodeCodeTablesC (tables.map canonTable)) ((tables.map canonTable).flatMap encodeCodeTable)
      (tables.length * (219 * m + 26)) := by
  induction tables with
  | nil => exact (runs_pure _).mono (by omega)
  | cons ls tables ih =>
    obtain ⟨h1, h2⟩ := ht ls (by simp)
    have r1 := encodeCodeTableC_runs ls m h1 h2
    have hl := encodeCodeTable_length ls 17 (by omega) h2
    rw [List.map_cons, encodeCodeTablesC, List.flatMap_cons]
    refine RunsIn.mono (runs_ticked (runs_bind r1 (runs_ticked (runs_bind (ih fun x hx => ht x (by simp [hx]))
      (runs_pure _))))) ?_
    rw [List.length_cons, Nat.add_mul tables.length 1]
    omega

/-! ### block_encoder.rs -/

theorem findEntryC_runs (s : HSym) (T : List CanonicalEntry) :
    RunsIn (findEntryC s T) (T.find? (fun e => e.symbol == s)) T.length := by
  induction T with
  | nil => exact runs_pure _
  | cons e T ih =>
    rw [findEntryC, List.find?_cons]
    refine RunsIn.mono (A := 1 + T.length) (runs_ticked ?_) (by simp; omega)
    split
    · rename_i hs
      rw [hs]
      exact (runs_pure _).mono (by omega)
    · rename_i hs
      simp only [Bool.not_eq_true] at hs
      rw [hs]
      exact ih

theorem codeOf_eq_find (T : List CanonicalEntry) (s : HSym) :
    codeOf T s = match T.find? (fun e => e.symbol == s) with
      | some e => e.code
      | none => [] := rfl

theorem encodeSymbolsC_runs (m : Nat) (tables : List (List CanonicalEntry)) (sel : List UInt8)
    (ht : ∀ T ∈ tables, T.length = m ∧ ∀ e ∈ T, e.code.length ≤ 17) (zle : List ZleSymbol) (k : Nat) (out : List Bit)
    (h : encodeSymbols tables sel zle k = Res.ok out) :
    RunsIn (encodeSymbolsC tables sel zle k) out (zle.length * (m + 35)) := by
  induction zle generalizing k out with
  | nil =>
    simp only [encodeSymbols, Res.ok.injEq] at h
    subst h
    exact (runs_pure _).mono (by omega)
  | cons s zle ih =>
    rw [encodeSymbols] at h
    obtain ⟨T, h1, h2⟩ := bind_is_ok.1 h
    obtain ⟨more, h3, h4⟩ := bind_is_ok.1 h2
    simp only [Res.pure_eq, Res.ok.injEq] at h4
    subst h4
    have hT : T ∈ tables := by
      rw [tableAt] at h1
      obtain ⟨x, -, g2⟩ := bind_is_ok.1 h1
      have hlt := idx_lt g2
      rw [idx, List.getElem?_eq_getElem hlt, Res.ofOption_some, Res.ok.injEq] at g2
      exact g2 ▸ List.getElem_mem hlt
    obtain ⟨t1, t2⟩ := ht T hT
    have r1 := findEntryC_runs (HSym.normal s) T
    have r2 := ih (k + 1) more h3
    have hc : (codeOf T (HSym.normal s)).length ≤ 17 := by
      rw [codeOf_eq_find]
      split
      · rename_i e hf
        exact t2 e (List.mem_of_find?_eq_some hf)
      · simp
    rw [encodeSymbolsC]
    refine RunsIn.mono (A := 1 + (0 + (m + (2 * (codeOf T (HSym.normal s)).length + (zle.length * (m + 35) + 0)))))
      (runs_ticked (runs_bind (runs_lift h1) (runs_bind (t1 ▸ r1) (runs_ticked (runs_bind r2 (runs_pure _)))))) ?_
    rw [List.length_cons, Nat.add_mul zle.length 1]
    omega

theorem lsbLoop_length (fuel x : Nat) : (lsbLoop fuel x).length ≤ fuel := by
  induction fuel generalizing x with
  | zero => simp [lsbLoop]
  | succ fuel ih =>
    rw [lsbLoop]
    split
    · have := ih (x / 2)
      simpa using this
    · simp

theorem convertToCodePadToNBits_length (x n : Nat) : (convertToCodePadToNBits x n).length ≤ x + n := by
  have := lsbLoop_length x x
  simp only [convertToCodePadToNBits, List.length_reverse, List.length_append, List.length_replicate]
  omega

/-- Writing a block of `n` used bytes with `nc` tables. -/
theorem emitBlockC_runs (crc : BitVec 32) (ptr : Nat) (used : List UInt8) (zle : List ZleSymbol) (rep : ReportedSymbols)
    (n nc : Nat) (hn : used.length = n) (h1 : 1 ≤ n) (h2 : n ≤ 256) (hs : StatsOk n nc zle rep)
    (hz : ∀ s ∈ zle, SymOk n s) (u : Nat) (hu : (usedBytes rep.selectors).length = u) (bits : List Bit)
    (h : emitBlock crc ptr used zle rep = Res.ok bits) :
    RunsIn (emitBlockC crc ptr used zle rep) bits
      (nc * (110 * ((n + 2) * (n + 2)) + 2069 * (n + 2) + 477) + rep.selectors.length * (4 * u + 3) + u * u + u
        + zle.length * (n + 37) + 2 * (n * n) + 4 * n + 2126) := by
  subst hn
  obtain ⟨tables, ht⟩ := codeTables_ok used.length h1 h2 rep.frequencies hs.dims
  obtain ⟨encs, e1, -, -⟩ := createSelectors_eq rep.selectors
  have hlen : ∀ ls ∈ tables, ls.length = used.length + 2 := fun ls h => (ht.lengths ls h).1
  have hls : ∀ ls ∈ tables, ls.length = used.length + 2 ∧ ∀ l ∈ ls, 1 ≤ l ∧ l ≤ 17 := fun ls h =>
    ⟨hlen ls h, fun l hl => ⟨(ht.lengths ls h).2.2 l hl, (ht.complete ls h).1 l hl⟩⟩
  have hcount : tables.length = nc := by rw [ht.count, hs.count]
  have hsel' : ∀ s ∈ rep.selectors, s.toNat < tables.length := by rw [hcount]; exact hs.sel
  have henough := hs.enough
  have hfit := hs.fit
  have hp := encodeSymbols_ok used.length h2 tables hlen rep.selectors hsel' zle hz 0 (by omega)
  obtain ⟨ls, l1, l2, l3⟩ := tableAt_ok tables rep.selectors hsel' zle.length (by omega)
  have hn : (UInt16.ofNat rep.selectors.length).toNat = rep.selectors.length :=
    UInt16.toNat_ofNat_of_lt' (by show _ < 65536; omega)
  have h15' := convertToCodePadTo15Bits_eq (UInt16.ofNat rep.selectors.length) (by rw [hn]; exact hfit)
  have heob := codeOf_canonTable ls (by rw [hlen ls l1]; omega) (used.length + 1) (by rw [hlen ls l1]; omega)
  rw [hlen ls l1, symbolAt, if_pos rfl] at heob
  have hcode : ∀ T ∈ tables.map canonTable, T.length = used.length + 2 ∧ ∀ e ∈ T, e.code.length ≤ 17 := by
    intro T hT
    obtain ⟨l, hl, rfl⟩ := List.mem_map.1 hT
    exact ⟨by rw [canonTable_length, hlen l hl], canonTable_code_le l 17 fun x hx => ((hls l hl).2 x hx).2⟩
  -- the steps
  have r1 := codeTablesC_runs used.length h1 h2 rep.frequencies hs.dims tables ht
  obtain ⟨r2, b2⟩ := createSelectorsC_runs rep.selectors u hu _ e1
  obtain ⟨r3, b3⟩ := getSymbolTableC_runs used
  have r4 := encodeCodeTablesC_runs (used.length + 2) tables hls
  have r5 := encodeSymbolsC_runs (used.length + 2) (tables.map canonTable) rep.selectors hcode zle 0 _ hp
  have r6 := findEntryC_runs HSym.eob (canonTable ls)
  rw [heob, canonTable_length, hlen ls l1] at r6
  have he17 : (codeBits ls (used.length + 1)).length ≤ 17 := by
    have := (hcode _ (List.mem_map_of_mem l1)).2 ⟨codeBits ls (used.length + 1), HSym.eob⟩
      (List.mem_of_find?_eq_some heob)
    exact this
  have hhead : (blockHeader crc ptr).length = 105 := by
    have hm : blockMagic.length = 48 := by rw [blockMagic, bytesBits_length]; rfl
    rw [blockHeader_eq]
    simp only [List.length_append, hm, natToBits_length, List.length_cons, List.length_nil]
  have hnt : (convertToCodePadToNBits (tables.map canonTable).length 3).length ≤ nc + 3 := by
    rw [List.length_map, hcount]
    exact convertToCodePadToNBits_length _ _
  have hb : bits = blockHeader crc ptr ++ getSymbolTable used
      ++ convertToCodePadToNBits (tables.map canonTable).length 3
      ++ natToBits 15 (UInt16.ofNat rep.selectors.length).toNat ++ unaryCode encs
      ++ (tables.map canonTable).flatMap encodeCodeTable
      ++ payloadBits tables (rep.selectors.map UInt8.toNat) 0 (zle.map symbolIndex)
      ++ codeBits ls (used.length + 1) := by
    simp only [emitBlock, ht.made, e1, Res.ok_bind, h15', hp, l2, heob, Res.ofOption_some, Res.pure_eq,
      Res.ok.injEq] at h
    exact h.symm
  rw [hb, emitBlockC]
  refine RunsIn.mono (runs_bind r1 (runs_bind r2 (runs_bind r3 (runs_bind r4 (runs_ticked (runs_bind (runs_lift h15')
    (runs_ticked (runs_bind r5 (runs_bind (runs_lift l2) (runs_bind r6 (runs_bind (runs_lift (Res.ofOption_some _))
      (runs_ticked (runs_pure _))))))))))))) ?_
  rw [hhead, natToBits_length, hs.count, hcount]
  dsimp only at b2 ⊢
  have f1 : nc * (110 * ((used.length + 2) * (used.length + 2)) + 2069 * (used.length + 2) + 477)
      = nc * (110 * ((used.length + 2) * (used.length + 2)) + 1850 * (used.length + 2) + 448)
        + nc * (219 * (used.length + 2) + 26) + 3 * nc := by ring
  have f2 : rep.selectors.length * (4 * u + 3)
      = rep.selectors.length * (3 * u + 3) + rep.selectors.length * u := by ring
  have f3 : zle.length * (used.length + 2 + 35) = zle.length * (used.length + 37) := by ring
  omega

end Ribzip2
