import Verif.Proofs.BlockDecode
import Verif.Spec.Strict
/- Whatever the block decoder accepts has the form described in Spec/Strict.lean. -/
namespace Ribzip2
open Spec

/-! ### Used bytes -/

def splitRanges : List Bit → List Bit → List (Option (List Bit))
  | [], _ => []
  | false :: index, regions => none :: splitRanges index regions
  | true :: index, regions => some (regions.take 16) :: splitRanges index (regions.drop 16)

theorem splitRanges_isSome (index regions : List Bit) : (splitRanges index regions).map Option.isSome = index := by
  induction index generalizing regions with
  | nil => rfl
  | cons b index ih => cases b <;> simp [splitRanges, ih]

theorem splitRanges_flat (index regions : List Bit) (h : regions.length = 16 * index.count true) :
    (splitRanges index regions).flatMap (fun r => r.getD []) = regions ∧
      ∀ r, some r ∈ splitRanges index regions → r.length = 16 := by
  induction index generalizing regions with
  | nil => simp at h; simp [splitRanges, h]
  | cons b index ih =>
    cases b
    · simp at h
      obtain ⟨h1, h2⟩ := ih regions h
      exact ⟨by simpa [splitRanges] using h1, fun r hr => h2 r (by simpa [splitRanges] using hr)⟩
    · simp at h
      obtain ⟨h1, h2⟩ := ih (regions.drop 16) (by simp; omega)
      refine ⟨by simp [splitRanges, h1], fun r hr => ?_⟩
      rcases List.mem_cons.1 hr with hr | hr
      · simp at hr; subst hr; simp; omega
      · exact h2 r hr

theorem getUsedRegions_length (index : List Bit) : (getUsedRegions index).length = index.count true := by
  unfold getUsedRegions
  rw [List.length_map]
  have : ∀ k, ((index.zipIdx k).filter (fun x => x.1)).length = index.count true := by
    induction index with
    | nil => simp
    | cons b index ih => intro k; cases b <;> simp [List.zipIdx_cons, ih]
  exact this 0

theorem map_getD_range {α : Type} (l : List α) (d : α) (n : Nat) (h : l.length = n) :
    (List.range n).map (fun i => l.getD i d) = l := by
  subst h
  apply List.ext_getElem
  · simp
  · intro i h1 h2
    simp at h1
    simp [List.getElem?_eq_getElem h2]

theorem pSymbolTable_ok {bs rest : List Bit} {U : List UInt8} (h : pSymbolTable bs = Res.ok (U, rest)) :
    ∃ ranges : List (Option (List Bool)), ranges.length = 16 ∧ (∀ r, some r ∈ ranges → r.length = 16) ∧
      bs = ranges.map Option.isSome ++ ranges.flatMap (fun r => r.getD []) ++ rest ∧
      U = allBytes.filter (fun b => ((ranges.getD (b.toNat / 16) none).getD []).getD (b.toNat % 16) false) := by
  unfold pSymbolTable at h
  rcases h1 : takeBits 16 bs with ⟨index, b1⟩ | _ | _ | _ <;> simp only [h1, Res.ok_bind, Res.err_bind, Res.panic_bind,
    Res.div_bind, reduceCtorEq] at h
  rcases h2 : takeBits (16 * (getUsedRegions index).length) b1 with ⟨regions, b2⟩ | _ | _ | _ <;> simp only [h2, Res.ok_bind,
    Res.err_bind, Res.panic_bind, Res.div_bind, reduceCtorEq, Res.pure_eq, Res.ok.injEq, Prod.mk.injEq] at h
  obtain ⟨e1, l1⟩ := takeBits_ok h1
  obtain ⟨e2, l2⟩ := takeBits_ok h2
  rw [getUsedRegions_length] at l2
  obtain ⟨g1, g2⟩ := splitRanges_flat index regions l2
  have g3 := splitRanges_isSome index regions
  generalize splitRanges index regions = ranges at g1 g2 g3
  have hlen : ranges.length = 16 := by rw [← l1, ← g3]; simp
  refine ⟨ranges, hlen, g2, by rw [e1, e2, g1, g3, h.2]; simp, ?_⟩
  rw [← h.1]
  have hr := map_getD_range ranges none 16 hlen
  have hidx : index = (List.range 16).map fun r => (ranges.getD r none).isSome := by
    rw [← g3]; conv => lhs; rw [← hr]
    rw [List.map_map]; rfl
  have hreg : regions = ((List.range 16).filter fun r => (ranges.getD r none).isSome).flatMap
      fun r => (List.range 16).map fun j => ((ranges.getD r none).getD []).getD j false := by
    rw [← g1]
    conv => lhs; rw [← hr]
    have key : ∀ l : List Nat, (∀ r ∈ l, r < 16) → (l.map fun i => ranges.getD i none).flatMap (fun r => r.getD [])
        = (l.filter fun r => (ranges.getD r none).isSome).flatMap
          fun r => (List.range 16).map fun j => ((ranges.getD r none).getD []).getD j false := by
      intro l hl
      induction l with
      | nil => rfl
      | cons r l ih =>
        rw [List.map_cons, List.flatMap_cons, ih (fun x hx => hl x (by simp [hx])), List.filter_cons]
        cases hx : ranges.getD r none with
        | none => simp
        | some g =>
          have hm : some g ∈ ranges := by
            have : r < ranges.length := by rw [hlen]; exact hl r (by simp)
            rw [List.getD_eq_getElem?_getD, List.getElem?_eq_getElem this] at hx
            simp at hx
            rw [← hx]; exact List.getElem_mem this
          simp only [Option.isSome_some, if_true, List.flatMap_cons, hx]
          congr 1
          simp only [Option.getD_some]
          exact (map_getD_range g false 16 (g2 g hm)).symm
    exact key _ (by simp)
  rw [hreg, hidx, getUsedRegions_map, usedFromRegions_eq, allBytes_blocks, List.filter_flatMap]
  have key : ∀ l : List Nat, (∀ r ∈ l, r < 16) → ((l.filter fun r => (ranges.getD r none).isSome).flatMap fun r =>
      ((List.range 16).filter fun j => ((ranges.getD r none).getD []).getD j false).map fun j => UInt8.ofNat (r * 16 + j))
      = l.flatMap fun r => ((List.range 16).map fun j => UInt8.ofNat (r * 16 + j)).filter
        (fun b => ((ranges.getD (b.toNat / 16) none).getD []).getD (b.toNat % 16) false) := by
    intro l hl
    induction l with
    | nil => rfl
    | cons r l ih =>
      have hr16 : r < 16 := hl r (by simp)
      have e : ((List.range 16).map fun j => UInt8.ofNat (r * 16 + j)).filter
          (fun b => ((ranges.getD (b.toNat / 16) none).getD []).getD (b.toNat % 16) false)
          = ((List.range 16).filter fun j => ((ranges.getD r none).getD []).getD j false).map
            fun j => UInt8.ofNat (r * 16 + j) := by
        rw [List.filter_map]
        congr 1
        apply List.filter_congr
        intro j hj
        have hj : j < 16 := by simpa using hj
        simp only [Function.comp]
        rw [UInt8.toNat_ofNat_of_lt' (show r * 16 + j < 256 by omega), show (r * 16 + j) / 16 = r by omega,
          show (r * 16 + j) % 16 = j by omega]
      rw [List.flatMap_cons, e, ← ih (fun x hx => hl x (by simp [hx])), List.filter_cons]
      cases hx : ranges.getD r none with
      | none => simp
      | some g =>
        simp only [Option.isSome_some, if_true, List.flatMap_cons, hx]
  exact key _ (by simp)

/-! ### Selectors -/

theorem pUnaryLoop_ok (amount : Nat) (bs : List Bit) (out o : List UInt8) (cur cnt : Nat) (rest : List Bit)
    (hc : cnt < amount) (hu : cur < 256) (h : pUnaryLoop amount bs out cur cnt = Res.ok (o, rest)) :
    ∃ is : List Nat, (∀ i ∈ is, i < 256) ∧ cnt + is.length = amount ∧
      List.replicate cur true ++ bs = is.flatMap unary ++ rest ∧ o = out ++ is.map UInt8.ofNat := by
  induction bs generalizing out cur cnt with
  | nil => simp [pUnaryLoop] at h
  | cons b bs ih =>
    cases b
    · rw [pUnaryLoop] at h
      split at h
      · simp only [Res.ok.injEq, Prod.mk.injEq] at h
        refine ⟨[cur], by simpa using hu, by simp; omega, ?_, by simp [← h.1]⟩
        simp [unary, h.2]
      · obtain ⟨is, i1, i2, i3, i4⟩ := ih _ 0 (cnt + 1) (by omega) (by omega) h
        refine ⟨cur :: is, by simpa using ⟨hu, i1⟩, by simp; omega, ?_, by simp [i4]⟩
        simp only [List.replicate_zero, List.nil_append] at i3
        simp [unary, i3]
    · rw [pUnaryLoop] at h
      split at h
      · rw [if_neg (by omega)] at h
        obtain ⟨is, i1, i2, i3, i4⟩ := ih _ (cur + 1) cnt hc (by omega) h
        refine ⟨is, i1, i2, ?_, i4⟩
        rw [← i3, List.replicate_succ']
        simp
      · simp at h

theorem pUnary_ok {amount : Nat} {bs rest : List Bit} {enc sel : List UInt8} {n : Nat} (ha : 0 < amount) (hn : n ≤ 256)
    (h : pUnary amount bs = Res.ok (enc, rest)) (hi : inverseMtf enc (allTables n) = Res.ok sel) :
    ∃ s bits, bs = bits ++ rest ∧ s.length = amount ∧ SelectorBits n s bits ∧ sel = s.map UInt8.ofNat := by
  obtain ⟨is, i1, i2, i3, i4⟩ := pUnaryLoop_ok amount bs [] enc 0 0 rest ha (by omega) h
  simp only [List.nil_append, List.replicate_zero] at i3 i4
  subst i4
  rw [inverseMtf, inverseMtfLoop_spec _ _ (allTables_nodup n hn), map_toNat_ofNat _ i1, allTables, mtfDecode_map] at hi
  rcases hm : mtfDecode (List.range n) is with _ | s
  · rw [hm] at hi; simp [Res.ofOption] at hi
  · rw [hm] at hi
    simp only [Option.map_some, Res.ofOption_some, Res.ok.injEq] at hi
    exact ⟨s, _, i3, by rw [mtfDecode_length _ _ _ hm]; omega, ⟨is, hm, rfl⟩, hi.symm⟩

/-! ### Code lengths -/

theorem pDeltaLoop_ok (amount hi : Nat) (bs : List Bit) (out o : List UInt8) (start read : Nat) (rest : List Bit)
    (hr : read < amount) (hh : start + bs.length ≤ hi) (h : pDeltaLoop amount bs out start read = Res.ok (o, rest)) :
    ∃ ls b, read + ls.length = amount ∧ bs = b ++ rest ∧ LengthsFrom 0 hi start ls b ∧ o = out ++ ls.map UInt8.ofNat := by
  induction hk : bs.length using Nat.strongRecOn generalizing bs out start read with
  | ind k ih =>
    match bs, h with
    | [], h => simp [pDeltaLoop] at h
    | [true], h => simp [pDeltaLoop] at h
    | false :: bs, h =>
      simp only [List.length_cons] at hh hk
      rw [pDeltaLoop] at h
      split at h
      · simp only [Res.ok.injEq, Prod.mk.injEq] at h
        refine ⟨[start], [false], by simp; omega, by simp [h.2], ?_, by simp [← h.1]⟩
        exact LengthsFrom.cons (b2 := []) (LengthSteps.done (by omega) (by omega)) LengthsFrom.nil
      · obtain ⟨ls, b, i1, i2, i3, i4⟩ := ih bs.length (by omega) bs _ start (read + 1) (by omega) (by omega) h rfl
        refine ⟨start :: ls, [false] ++ b, by simp; omega, by simp [i2], ?_, by simp [i4]⟩
        exact LengthsFrom.cons (LengthSteps.done (by omega) (by omega)) i3
    | true :: false :: bs, h =>
      simp only [List.length_cons] at hh hk
      rw [pDeltaLoop] at h
      simp only [Bool.false_eq_true, if_false] at h
      rw [if_neg (by omega)] at h
      obtain ⟨ls, b, i1, i2, i3, i4⟩ := ih bs.length (by omega) bs _ (start + 1) read hr (by omega) h rfl
      cases i3 with
      | nil => simp at i1; omega
      | @cons _ l ls b1 b2 s1 s2 =>
        refine ⟨l :: ls, (true :: false :: b1) ++ b2, i1, by simp [i2], ?_, i4⟩
        exact LengthsFrom.cons (LengthSteps.inc (by omega) (by omega) s1) s2
    | true :: true :: bs, h =>
      simp only [List.length_cons] at hh hk
      rw [pDeltaLoop] at h
      simp only [if_true, subU] at h
      match start, hh, h with
      | 0, _, h => simp at h
      | start + 1, hh, h =>
        simp only [Nat.le_add_left, if_true, Nat.add_sub_cancel] at h
        rw [if_neg (by omega)] at h
        obtain ⟨ls, b, i1, i2, i3, i4⟩ := ih bs.length (by omega) bs _ start read hr (by omega) h rfl
        cases i3 with
        | nil => simp at i1; omega
        | @cons _ l ls b1 b2 s1 s2 =>
          refine ⟨l :: ls, (true :: true :: b1) ++ b2, i1, by simp [i2], ?_, i4⟩
          exact LengthsFrom.cons (LengthSteps.dec (by omega) (by omega) s1) s2

theorem pDelta_ok {amount : Nat} {bs rest : List Bit} {o : List UInt8} (ha : 0 < amount)
    (h : pDelta amount bs = Res.ok (o, rest)) :
    ∃ ls b, ls.length = amount ∧ bs = b ++ rest ∧ (∃ hi, LengthTable 0 hi ls b) ∧ o = ls.map UInt8.ofNat := by
  unfold pDelta at h
  rcases h1 : takeBits 5 bs with ⟨x, b1⟩ | _ | _ | _ <;> simp only [h1, Res.ok_bind, Res.err_bind, Res.panic_bind,
    Res.div_bind, reduceCtorEq] at h
  obtain ⟨e1, l1⟩ := takeBits_ok h1
  obtain ⟨ls, b, i1, i2, i3, i4⟩ := pDeltaLoop_ok amount _ b1 [] o _ 0 rest ha (Nat.le_refl _) h
  have hx := bitsToNat_lt x
  rw [l1] at hx
  refine ⟨ls, x ++ b, by omega, by rw [e1, i2]; simp, ⟨_, convertToNumber x, b, ?_, ?_, i3⟩, by simpa using i4⟩
  · rw [convertToNumber_eq]; omega
  · rw [convertToNumber_eq, ← l1, natToBits_bitsToNat]

theorem pTrees_ok {amount : Nat} (ha : 0 < amount) (n : Nat) {bs rest : List Bit} {trees : List (List UInt8)}
    (h : pTrees amount n bs = Res.ok (trees, rest)) :
    ∃ tables bits, tables.length = n ∧ (∀ ls ∈ tables, ls.length = amount) ∧ bs = bits.flatten ++ rest ∧
      List.Forall₂ (fun ls b => ∃ hi, LengthTable 0 hi ls b) tables bits ∧
      trees = tables.map fun ls => ls.map UInt8.ofNat := by
  induction n generalizing bs trees with
  | zero =>
    simp only [pTrees, Res.ok.injEq, Prod.mk.injEq] at h
    exact ⟨[], [], rfl, by simp, by simp [h.2], List.Forall₂.nil, by simp [h.1]⟩
  | succ n ih =>
    rw [pTrees] at h
    rcases h1 : pDelta amount bs with ⟨tree, b1⟩ | _ | _ | _ <;> simp only [h1, Res.unwrap_ok, Res.unwrap_err,
      Res.unwrap_panic, Res.unwrap_div, Res.ok_bind, Res.panic_bind, Res.div_bind, reduceCtorEq] at h
    rcases h2 : pTrees amount n b1 with ⟨more, b2⟩ | _ | _ | _ <;> simp only [h2, Res.ok_bind, Res.err_bind, Res.panic_bind,
      Res.div_bind, reduceCtorEq, Res.pure_eq, Res.ok.injEq, Prod.mk.injEq] at h
    obtain ⟨ls, b, d1, d2, d3, d4⟩ := pDelta_ok ha h1
    obtain ⟨hm, rfl⟩ := h
    obtain ⟨tables, bits, t1, t2, t3, t4, t5⟩ := ih h2
    refine ⟨ls :: tables, b :: bits, by simp [t1], by simpa using ⟨d1, t2⟩, ?_, List.Forall₂.cons d3 t4, ?_⟩
    · rw [d2, t3]; simp
    · rw [← hm, d4, t5]; rfl

/-! ### Symbols -/

theorem readFromTable_some {ls : List Nat} {c : List Bit} {sym : HSym} (h : readFromTable (canonTable ls) c = some sym) :
    ∃ i < ls.length, c = codeBits ls i ∧ sym = symbolAt ls.length i := by
  unfold readFromTable canonTable at h
  rcases hf : ((List.range ls.length).map fun i => (⟨codeBits ls i, symbolAt ls.length i⟩ : CanonicalEntry)).find?
    (fun e => e.code == c) with _ | e
  · simp [hf] at h
  · have h1 := List.find?_some hf
    have h2 := List.mem_of_find?_eq_some hf
    rw [hf] at h
    obtain ⟨i, hi, rfl⟩ := List.mem_map.1 h2
    simp at h h1 hi
    exact ⟨i, hi, h1.symm, h.symm⟩

theorem pSymbolsLoop_ok (ls : List Nat) (m : Nat) (bs : List Bit) (all o : List ZleSymbol) (cur : List Bit) (k : Nat)
    (rest : List Bit) (hk : k < m) (h : pSymbolsLoop (canonTable ls) m bs all cur k = Res.ok (o, rest)) :
    ∃ g : List Nat, k + g.length ≤ m ∧ (∀ x ∈ g, x + 1 < ls.length) ∧ o = all ++ g.map symbolOfIndex ∧
      cur ++ bs = g.flatMap (codeBits ls) ++ (if k + g.length < m then codeBits ls (ls.length - 1) else []) ++ rest := by
  induction bs generalizing all cur k with
  | nil => simp [pSymbolsLoop] at h
  | cons b bs ih =>
    rw [pSymbolsLoop] at h
    have e : cur ++ b :: bs = (cur ++ [b]) ++ bs := by simp
    rw [e]
    split at h
    · rename_i symbol hx
      obtain ⟨i, hi, c1, c2⟩ := readFromTable_some hx
      rw [c1]
      have hi' : i + 1 ≠ ls.length := by
        intro e
        rw [symbolAt, if_pos e] at c2
        simp at c2
      rw [symbolAt, if_neg hi', HSym.normal.injEq] at c2
      split at h
      · simp only [Res.ok.injEq, Prod.mk.injEq] at h
        refine ⟨[i], by simp; omega, by simp; omega, by simp [← h.1, c2], ?_⟩
        rw [if_neg (by simp; omega)]
        simp [h.2]
      · obtain ⟨g, g1, g2, g3, g4⟩ := ih _ [] (k + 1) (by omega) h
        refine ⟨i :: g, by simp; omega, by simpa using ⟨by omega, g2⟩, by simp [g3, c2], ?_⟩
        rw [List.nil_append] at g4
        rw [g4]
        have e : k + (i :: g).length = k + 1 + g.length := by simp; omega
        simp only [List.flatMap_cons, List.append_assoc, e]
    · rename_i hx
      obtain ⟨i, hi, c1, c2⟩ := readFromTable_some hx
      rw [c1]
      have hi' : i + 1 = ls.length := by
        by_contra e
        rw [symbolAt, if_neg e] at c2
        simp at c2
      simp only [Res.ok.injEq, Prod.mk.injEq] at h
      refine ⟨[], by simp; omega, by simp, by simp [h.1], ?_⟩
      rw [if_pos (by simpa using hk), show i = ls.length - 1 by omega]
      simp [h.2]
    · rw [if_neg (by omega)] at h
      exact ih _ _ k hk h

theorem pGroups_ok (n : Nat) (tables : List (List Nat)) (ht : ∀ ls ∈ tables, ls.length = n + 2) (sel : List Nat)
    (hsel : ∀ s ∈ sel, s < 256) (bs rest : List Bit) (o : List ZleSymbol)
    (h : pGroups (tables.map canonTable) (sel.map UInt8.ofNat) bs = Res.ok (o, rest)) :
    ∃ groups : List (List Nat), groups.length = sel.length ∧ (∀ g ∈ groups, g.length ≤ 50) ∧
      (∀ g ∈ groups, ∀ x ∈ g, x < n + 1) ∧ o = groups.flatten.map symbolOfIndex ∧
      bs = (List.zipWith (fun i g => groupBits (n + 1) (tables.getD i []) g) sel groups).flatten ++ rest := by
  induction sel generalizing bs o with
  | nil =>
    simp only [List.map_nil, pGroups, Res.ok.injEq, Prod.mk.injEq] at h
    exact ⟨[], rfl, by simp, by simp, by simp [← h.1], by simp [h.2]⟩
  | cons s sel ih =>
    rw [List.map_cons, pGroups, UInt8.toNat_ofNat_of_lt' (show s < 256 from hsel s (by simp))] at h
    rcases hx : tables[s]? with _ | ls
    · simp [idx, hx] at h
    have hi : idx (tables.map canonTable) s = Res.ok (canonTable ls) := by simp [idx, hx]
    have hls := ht ls (List.mem_of_getElem? hx)
    rw [hi, Res.ok_bind] at h
    rcases h1 : pSymbols (canonTable ls) 50 bs with ⟨syms, b1⟩ | _ | _ | _ <;> simp only [h1, Res.unwrap_ok, Res.unwrap_err,
      Res.unwrap_panic, Res.unwrap_div, Res.ok_bind, Res.panic_bind, Res.div_bind, reduceCtorEq] at h
    rcases h2 : pGroups (tables.map canonTable) (sel.map UInt8.ofNat) b1 with ⟨more, b2⟩ | _ | _ | _ <;> simp only [h2,
      Res.ok_bind, Res.err_bind, Res.panic_bind, Res.div_bind, reduceCtorEq, Res.pure_eq, Res.ok.injEq, Prod.mk.injEq] at h
    obtain ⟨g, g1, g2, g3, g4⟩ := pSymbolsLoop_ok ls 50 bs [] syms [] 0 b1 (by omega) h1
    obtain ⟨hm, rfl⟩ := h
    obtain ⟨groups, i1, i2, i3, i4, i5⟩ := ih (fun x hx => hsel x (by simp [hx])) b1 more h2
    refine ⟨g :: groups, by simp [i1], by simpa using ⟨by omega, i2⟩, ?_, ?_, ?_⟩
    · intro g' hg' x hx
      rcases List.mem_cons.1 hg' with rfl | hg'
      · have := g2 x hx; omega
      · exact i3 g' hg' x hx
    · rw [← hm, g3, i4]; simp
    · have hget : tables.getD s [] = ls := by rw [List.getD_eq_getElem?_getD, hx]; rfl
      simp only [List.nil_append, Nat.zero_add] at g4
      rw [List.zipWith_cons_cons, List.flatten_cons, hget, g4, i5]
      simp only [groupBits, hls, List.append_assoc]
      rfl

/-! ### The form the format prescribes -/

theorem Spec.BlockStart.used_sorted (s : BlockStart) : s.used.Pairwise (· < ·) := allBytes_pairwise.filter _

theorem Spec.BlockStart.mem_used (s : BlockStart) (b : UInt8) : b ∈ s.used ↔ s.marks b = true := by
  simp [BlockStart.used, mem_allBytes]

/-- Without empty ranges the map of the used bytes is the one the format prescribes. -/
theorem ranges_bits (s : BlockStart) (h : s.Fits) (hne : ∀ r, some r ∈ s.ranges → true ∈ r) :
    s.ranges.map Option.isSome ++ s.ranges.flatMap (fun r => r.getD []) = symbolMapBits s.used := by
  have hr := map_getD_range s.ranges none 16 h.ranges
  have hmark : ∀ r < 16, ∀ j < 16, decide (UInt8.ofNat (16 * r + j) ∈ s.used)
      = ((s.ranges.getD r none).getD []).getD j false := by
    intro r hr j hj
    have : s.marks (UInt8.ofNat (16 * r + j)) = ((s.ranges.getD r none).getD []).getD j false := by
      unfold BlockStart.marks
      rw [UInt8.toNat_ofNat_of_lt' (show 16 * r + j < 256 by omega), show (16 * r + j) / 16 = r by omega,
        show (16 * r + j) % 16 = j by omega]
    rw [← this]
    simp only [s.mem_used, Bool.decide_eq_true]
  have hmem : ∀ r < 16, ∀ g, s.ranges.getD r none = some g → some g ∈ s.ranges := by
    intro r hr g hg
    have hlt : r < s.ranges.length := by rw [h.ranges]; exact hr
    rw [List.getD_eq_getElem?_getD, List.getElem?_eq_getElem hlt] at hg
    simp at hg
    rw [← hg]; exact List.getElem_mem hlt
  have hused : ∀ r < 16, rangeUsed s.used r = (s.ranges.getD r none).isSome := by
    intro r hr
    rw [Bool.eq_iff_iff]
    simp only [rangeUsed, List.any_eq_true, beq_iff_eq, s.mem_used]
    constructor
    · rintro ⟨b, hb, rfl⟩
      unfold BlockStart.marks at hb
      cases hx : s.ranges.getD (b.toNat / 16) none with
      | none => rw [hx] at hb; simp at hb
      | some g => rfl
    · intro hs
      obtain ⟨g, hg⟩ := Option.isSome_iff_exists.1 hs
      have hm := hmem r hr g hg
      obtain ⟨j, hj, hjt⟩ := List.getElem_of_mem (hne g hm)
      have hl := h.range g hm
      have e : (UInt8.ofNat (16 * r + j)).toNat = 16 * r + j := UInt8.toNat_ofNat_of_lt' (show 16 * r + j < 256 by omega)
      refine ⟨UInt8.ofNat (16 * r + j), ?_, by rw [e]; omega⟩
      unfold BlockStart.marks
      rw [e, show (16 * r + j) / 16 = r by omega, show (16 * r + j) % 16 = j by omega, hg]
      simp [List.getElem?_eq_getElem hj, hjt]
  unfold symbolMapBits
  conv => lhs; rw [← hr]
  congr 1
  · rw [List.map_map]
    apply List.map_congr_left
    intro r hr
    exact (hused r (by simpa using hr)).symm
  · have key : ∀ l : List Nat, (∀ r ∈ l, r < 16) → (l.map fun i => s.ranges.getD i none).flatMap (fun r => r.getD [])
        = (l.filter (rangeUsed s.used)).flatMap
          fun r => (List.range 16).map fun j => decide (UInt8.ofNat (16 * r + j) ∈ s.used) := by
      intro l hl
      induction l with
      | nil => rfl
      | cons r l ih =>
        have hr16 := hl r (by simp)
        rw [List.map_cons, List.flatMap_cons, ih (fun x hx => hl x (by simp [hx])), List.filter_cons, hused r hr16]
        cases hx : s.ranges.getD r none with
        | none => simp
        | some g =>
          simp only [Option.isSome_some, if_true, List.flatMap_cons]
          congr 1
          rw [List.map_congr_left (g := fun j => g.getD j false)]
          · simp only [Option.getD_some]
            exact (map_getD_range g false 16 (h.range g (hmem r hr16 g hx))).symm
          · intro j hj
            rw [hmark r hr16 j (by simpa using hj), hx]
            rfl
    exact key _ (by simp)

/-- The groups as the format writes them. -/
theorem payload_bits (eob : Nat) (tables : List (List Nat)) (sel : List Nat) (full : List (List Nat)) (last : List Nat)
    (hn : sel.length = full.length + 1) (hl : last.length < 50) (hf : ∀ g ∈ full, g.length = 50) :
    (List.zipWith (fun i g => groupBits eob (tables.getD i []) g) sel (full ++ [last])).flatten
      = payloadBits tables sel 0 ((full ++ [last]).flatten ++ [eob]) := by
  induction full generalizing sel with
  | nil =>
    match sel, hn with
    | [s], _ =>
      have := payloadBits_chunk tables s [] 0 (last ++ [eob]) (by simp; omega)
      simp [groupBits, hl, this]
  | cons g full ih =>
    match sel, hn with
    | s :: sel, hn =>
      have hg := hf g (by simp)
      rw [List.cons_append, List.zipWith_cons_cons, List.flatten_cons,
        ih sel (by simpa using hn) (fun x hx => hf x (by simp [hx])), List.flatten_cons, List.append_assoc,
        payloadBits_append _ _ _ g, payloadBits_chunk tables s sel 0 g (by omega), hg]
      have := payloadBits_shift tables s sel 0 ((full ++ [last]).flatten ++ [eob])
      rw [show 50 + 0 = 0 + 50 by omega] at this
      rw [this]
      simp [groupBits, hg]

theorem zleDecode_mem (w : Nat) (l : List Nat) (x : Nat) (h : x ∈ zleDecode w l) : x = 0 ∨ ∃ y ∈ l, x + 1 = y := by
  induction l generalizing w with
  | nil => simp [zleDecode] at h
  | cons a l ih =>
    have hrec : ∀ w, x ∈ zleDecode w l → x = 0 ∨ ∃ y ∈ a :: l, x + 1 = y := fun w h => by
      rcases ih w h with h | ⟨y, hy, e⟩
      · exact Or.inl h
      · exact Or.inr ⟨y, by simp [hy], e⟩
    match a with
    | 0 =>
      rw [zleDecode] at h
      rcases List.mem_append.1 h with h | h
      · exact Or.inl (List.eq_of_mem_replicate h)
      · exact hrec _ h
    | 1 =>
      rw [zleDecode] at h
      rcases List.mem_append.1 h with h | h
      · exact Or.inl (List.eq_of_mem_replicate h)
      · exact hrec _ h
    | v + 2 =>
      rw [zleDecode] at h
      rcases List.mem_cons.1 h with h | h
      · exact Or.inr ⟨v + 2, by simp, by omega⟩
      · exact hrec _ h

theorem buildTables_ne {n : Nat} {trees : List (List UInt8)} (hne : trees ≠ []) (hl : ∀ t ∈ trees, t.length = n + 2)
    {T : List (List CanonicalEntry)} (h : buildTables trees = Res.ok T) : 1 ≤ n := by
  by_contra hn
  have hn : n = 0 := by omega
  subst hn
  match trees, hne, hl with
  | t :: rest, _, hl =>
    have := hl t (by simp)
    simp [buildTables, fromWeights, this, subU] at h

/-- **What the block decoder accepts**: a block the format allows for what is returned, or one of the listed deviations. -/
theorem pBlock_accepts {bs rest : List Bit} {d : List UInt8} (level : Nat) (hlv : level ≤ 9)
    (h : pBlock bs = Res.ok (d, rest)) :
    ∃ bits, bs = natToBits 32 (Spec.crc32 d).toNat ++ bits ∧
      (BlockDeviates level bits ∨ ∃ body, bits = body ++ rest ∧ ValidBody (100000 * level) d body) := by
  obtain ⟨body0, hbody0⟩ := pBlock_crc h
  refine ⟨body0 ++ rest, by rw [hbody0, List.append_assoc], ?_⟩
  simp only [pBlock] at h
  rcases h1 : takeBits 32 bs with ⟨crcBits, b1⟩ | _ | _ | _ <;> simp [h1] at h
  obtain ⟨e1, l1⟩ := takeBits_ok h1
  have eb1 : b1 = body0 ++ rest := by
    rw [hbody0, List.append_assoc] at e1
    exact (List.append_inj e1.symm (by rw [l1, natToBits_length])).2
  rw [← eb1]
  rcases h2 : takeBits 1 b1 with ⟨x2, b2⟩ | _ | _ | _ <;> simp [h2] at h
  rcases h3 : takeBits 24 b2 with ⟨x3, b3⟩ | _ | _ | _ <;> simp [h3] at h
  rcases h4 : pSymbolTable b3 with ⟨U, b4⟩ | _ | _ | _ <;> simp [h4] at h
  rcases h5 : takeBits 3 b4 with ⟨x5, b5⟩ | _ | _ | _ <;> simp [h5] at h
  rcases h6 : takeBits 15 b5 with ⟨x6, b6⟩ | _ | _ | _ <;> simp [h6] at h
  obtain ⟨e2, l2⟩ := takeBits_ok h2
  obtain ⟨e3, l3⟩ := takeBits_ok h3
  obtain ⟨ranges, r1, r2, e4, hU⟩ := pSymbolTable_ok h4
  obtain ⟨e5, l5⟩ := takeBits_ok h5
  obtain ⟨e6, l6⟩ := takeBits_ok h6
  obtain ⟨flag, rfl⟩ : ∃ f, x2 = [f] := List.length_eq_one_iff.1 l2
  have hnum : ∀ x : List Bit, convertToNumber x < 2 ^ x.length ∧ natToBits x.length (convertToNumber x) = x := by
    intro x
    rw [convertToNumber_eq]
    exact ⟨bitsToNat_lt x, natToBits_bitsToNat x⟩
  generalize hs : (⟨flag, convertToNumber x3, ranges, convertToNumber x5, convertToNumber x6⟩ : BlockStart) = s
  have hU' : U = s.used := by rw [hU, ← hs]; rfl
  have hfit : s.Fits := by
    have a3 := (hnum x3).1
    have a5 := (hnum x5).1
    have a6 := (hnum x6).1
    rw [l3] at a3; rw [l5] at a5; rw [l6] at a6
    rw [← hs]
    exact ⟨a3, r1, r2, a5, a6⟩
  have hbits : b1 = s.bits ++ b6 := by
    have a3 := (hnum x3).2
    have a5 := (hnum x5).2
    have a6 := (hnum x6).2
    rw [l3] at a3; rw [l5] at a5; rw [l6] at a6
    rw [← hs]
    simp only [BlockStart.bits, a3, a5, a6]
    rw [e2, e3, e4, e5, e6]
    simp
  have n5 : convertToNumber x5 = s.numTables := by rw [← hs]
  have n6 : convertToNumber x6 = s.numSelectors := by rw [← hs]
  have n3 : convertToNumber x3 = s.ptr := by rw [← hs]
  rw [n3, n5, n6, hU'] at h
  clear hs hU hU' n3 n5 n6
  by_cases hdev : s.Deviates
  · exact Or.inl (BlockDeviates.start s b6 hfit hbits hdev)
  obtain ⟨d1, d2, d3, d4, d5⟩ : s.randomised = false ∧ (∀ r, some r ∈ s.ranges → true ∈ r) ∧ 2 ≤ s.numTables ∧
      s.numTables ≤ 6 ∧ 0 < s.numSelectors := by
    simp only [BlockStart.Deviates, not_or, not_exists, not_and, not_not, not_lt] at hdev
    obtain ⟨d1, d2, d3, d4, d5⟩ := hdev
    exact ⟨by simpa using d1, d2, d3, d4, by omega⟩
  rcases h7 : pUnary s.numSelectors b6 with ⟨enc, b7⟩ | _ | _ | _ <;> simp [h7] at h
  rcases h8 : inverseMtf enc ((List.range s.numTables).map UInt8.ofNat) with sel8 | _ | _ | _ <;> simp [h8] at h
  rcases h9 : pTrees (s.used.length + 2) s.numTables b7 with ⟨trees, b9⟩ | _ | _ | _ <;> simp [h9] at h
  rcases h10 : buildTables trees with T | _ | _ | _ <;> simp [h10] at h
  obtain ⟨sel, selBits, s1, s2, s3, s4⟩ := pUnary_ok d5 (by omega) h7 h8
  obtain ⟨tables, tableBits, t1, t2, t3, t4, t5⟩ := pTrees_ok (by omega) _ h9
  generalize ht : (⟨sel, selBits, tables, tableBits⟩ : BlockTables) = t
  have htfit : t.Fits s := by rw [← ht]; exact ⟨s2, s3, t1, t2, t4⟩
  have htbits : b1 = s.bits ++ t.bits ++ b9 := by rw [hbits, s1, t3, ← ht]; simp [BlockTables.bits]
  by_cases htdev : t.Deviates
  · exact Or.inl (BlockDeviates.tables s t b9 hfit htfit htbits htdev)
  obtain ⟨k1, k2⟩ : List.Forall₂ (LengthTable 1 20) tables tableBits ∧ ∀ ls ∈ tables, KraftLe 20 ls := by
    rw [← ht] at htdev
    simpa [BlockTables.Deviates, not_or] using htdev
  have h256 := used_length_le s.used_sorted
  have hpos : 1 ≤ s.used.length := by
    refine buildTables_ne (n := s.used.length) (trees := trees) ?_ ?_ h10
    · rw [t5]; intro e; simp at e; rw [e] at t1; simp at t1; omega
    · rw [t5]; intro x hx
      obtain ⟨ls, hls, rfl⟩ := List.mem_map.1 hx
      simpa using t2 ls hls
  have htok : TablesOk s.used.length tables := fun ls hls => by
    obtain ⟨bits, hb⟩ := forall₂_left k1 ls hls
    exact ⟨t2 ls hls, k2 ls hls, fun l hl => (lengthTable_bounds hb l hl).1⟩
  rw [t5, buildTables_canon s.used.length hpos h256 tables htok, Res.ok.injEq] at h10
  subst h10
  rcases h11 : pGroups (tables.map canonTable) sel8 b9 with ⟨zle, b11⟩ | _ | _ | _ <;> simp [h11] at h
  rw [s4] at h11
  have hsel : ∀ x ∈ sel, x < s.numTables := selectorBits_mem s3
  obtain ⟨groups, g1, g2, g3, g4, g5⟩ := pGroups_ok s.used.length tables t2 sel
    (fun x hx => by have := hsel x hx; omega) b9 b11 zle h11
  have hgfit : GroupsFit s t groups := by rw [← ht]; exact ⟨g1, g2, g3⟩
  rcases h12 : finishBlock (BitVec.ofNat 32 (convertToNumber crcBits)) s.ptr s.used zle with d' | _ | _ | _ <;>
    simp [h12] at h
  obtain ⟨rfl, rfl⟩ := h
  have hgbits : b1 = s.bits ++ t.bits ++ payloadOf s t groups ++ b11 := by
    rw [htbits, g5, ← ht]; simp [payloadOf]
  by_cases hgdev : GroupsDeviate (100000 * level) s groups
  · exact Or.inl (BlockDeviates.groups s t groups b11 hfit htfit hgfit hgbits hgdev)
  right
  simp only [GroupsDeviate, not_or, not_exists, not_and, not_not, not_lt, not_forall] at hgdev
  obtain ⟨⟨full, lastg, f1, f2, f3⟩, q2, q3, q4⟩ := hgdev
  have hsyms : ∀ x ∈ groups.flatten, x < s.used.length + 1 := by
    intro x hx
    obtain ⟨g, hg, hxg⟩ := List.mem_flatten.1 hx
    exact g3 g hg x hxg
  have hidx : (groups.flatten.map symbolOfIndex).map symbolIndex = groups.flatten :=
    map_symbolIndex _ fun x hx => by have := hsyms x hx; omega
  have hz := decodeZle_eq (groups.flatten.map symbolOfIndex)
    (by
      intro n hn
      obtain ⟨i, hi, e⟩ := List.mem_map.1 hn
      exact symbolOfIndex_number e (by have := hsyms i hi; omega))
    (by rw [hidx]; omega)
  rw [hidx] at hz
  obtain ⟨last, hm⟩ : ∃ last, mtfDecode s.used (zleDecode 1 groups.flatten) = some last := by
    have h12' := h12
    rw [finishBlock, g4, hz, Res.ok_bind] at h12'
    rcases h13 : inverseMtf ((zleDecode 1 groups.flatten).map UInt8.ofNat) s.used with last | _ | _ | _ <;>
      simp only [h13, Res.ok_bind, Res.err_bind, Res.panic_bind, Res.div_bind, reduceCtorEq] at h12'
    refine ⟨last, ?_⟩
    have hlt : ∀ x ∈ zleDecode 1 groups.flatten, x < 256 := by
      intro x hx
      rcases zleDecode_mem 1 groups.flatten x hx with h0 | ⟨y, hy, h0⟩
      · omega
      · have := hsyms y hy; omega
    rw [inverseMtf, inverseMtfLoop_spec _ _ (s.used_sorted.imp
      (fun {a b} (h : a < b) => by rintro rfl; exact absurd h (by simp))), map_toNat_ofNat _ hlt] at h13
    rcases h14 : mtfDecode s.used (zleDecode 1 groups.flatten) with _ | l
    · rw [h14] at h13; simp [Res.ofOption] at h13
    · rw [h14] at h13; simp at h13; rw [h13]
  obtain ⟨rle, hbwt⟩ := q3 last hm
  have hhaz : countHazard rle = false := by simpa using q4 last rle hm hbwt
  have hlast : last.length = rle.length := by
    obtain ⟨rows, h1, -, h3, -⟩ := hbwt
    rw [h3, List.length_map, h1.length_eq, rotations, List.length_map, List.length_range]
  have hlz := mtfDecode_length _ _ _ hm
  let p : BlockParts := ⟨rle, last, s.ptr, s.used, groups.flatten, tables, tableBits, sel, selBits⟩
  have hfin := finishBlock_valid p s.used_sorted hsyms hm hbwt (by show rle.length + 1 ≤ _; omega)
    (BitVec.ofNat 32 (convertToNumber crcBits))
  rw [show p.syms.map symbolOfIndex = zle from g4.symm, show p.ptr = s.ptr from rfl, show p.used = s.used from rfl,
    h12, inverseRle_eq rle hhaz] at hfin
  split at hfin
  · simp only [Res.ok.injEq] at hfin
    have hlen : groups.flatten.length = 50 * full.length + lastg.length := by
      rw [f1, List.flatten_append, List.length_append]
      have : ∀ l : List (List Nat), (∀ g ∈ l, g.length = 50) → l.flatten.length = 50 * l.length := by
        intro l hl
        induction l with
        | nil => rfl
        | cons g l ih =>
          rw [List.flatten_cons, List.length_append, ih (fun x hx => hl x (by simp [hx])), hl g (by simp)]
          simp; omega
      rw [this full f3]; simp
    have hsl : sel.length = full.length + 1 := by rw [← g1, f1]; simp
    refine ⟨p.body, ?_, p, ?_, rfl⟩
    · rw [hgbits, ← ht]
      simp only [p, BlockParts.body, BlockParts.eob, BlockStart.bits, BlockTables.bits, payloadOf, d1, t1, s2]
      rw [← ranges_bits s hfit d2, f1, payload_bits _ tables sel full lastg hsl f2 f3]
      simp
    · exact {
        content := hfin.symm
        size := by show rle.length ≤ _; omega
        transform := hbwt
        ptr := hfit.ptr
        used := s.used_sorted
        mtf := hm
        symbols := hsyms
        numTables := by show 2 ≤ tables.length ∧ tables.length ≤ 6; omega
        lengths := fun ls hls => ⟨t2 ls hls, k2 ls hls⟩
        transmitted := k1
        numSelectors := by show sel.length < _; rw [s2]; exact hfit.numSelectors
        selected := by show SelectorBits tables.length _ _; rw [t1]; exact s3
        enough := by show groups.flatten.length + 1 ≤ 50 * sel.length; omega }
  · simp at hfin

end Ribzip2
