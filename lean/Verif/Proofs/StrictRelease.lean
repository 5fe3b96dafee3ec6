import Verif.Spec.StrictRelease
import Verif.Proofs.Strict
import Verif.Proofs.Release
/- What the decoder of release builds accepts (C85). -/
namespace Ribzip2.Release
open Spec

theorem unaryLoop_panic (amount : Nat) (bs : List Bit) (out : List UInt8) (cur cnt : Nat)
    (hc : cnt < amount) (hu : cur < 256) (h : Ribzip2.pUnaryLoop amount bs out cur cnt = Res.panic) :
    ∃ (is : List Nat) (rest : List Bit), cnt + is.length < amount ∧
      List.replicate cur true ++ bs = is.flatMap unary ++ List.replicate 256 true ++ rest := by
  induction bs generalizing out cur cnt with
  | nil => simp [Ribzip2.pUnaryLoop] at h
  | cons b bs ih =>
    cases b
    · rw [Ribzip2.pUnaryLoop] at h
      split at h
      · simp at h
      · obtain ⟨is, rest, i1, i2⟩ := ih _ 0 (cnt + 1) (by omega) (by omega) h
        refine ⟨cur :: is, rest, by simp; omega, ?_⟩
        simp only [List.replicate_zero, List.nil_append] at i2
        rw [List.flatMap_cons, unary, List.append_assoc, List.append_assoc, List.append_assoc, ← List.append_assoc (List.flatMap _ _), ← i2]
        rfl
    · rw [Ribzip2.pUnaryLoop] at h
      split at h
      · rw [if_neg (by omega)] at h
        obtain ⟨is, rest, i1, i2⟩ := ih _ (cur + 1) cnt hc (by omega) h
        refine ⟨is, rest, i1, ?_⟩
        rw [← i2, List.replicate_succ']
        simp
      · refine ⟨[], bs, by simpa using hc, ?_⟩
        rw [show 256 = cur + 1 by omega, List.replicate_succ']
        simp

theorem deltaLoop_panic (amount hi : Nat) (bs : List Bit) (out : List UInt8) (start read : Nat)
    (hr : read < amount) (hh : start + bs.length ≤ hi) (h : Ribzip2.pDeltaLoop amount bs out start read = Res.panic) :
    ∃ ls b rest, read + ls.length < amount ∧ bs = b ++ [true, true] ++ rest ∧
      LengthsFrom 0 hi start (ls ++ [0]) (b ++ [false]) := by
  induction hk : bs.length using Nat.strongRecOn generalizing bs out start read with
  | ind k ih =>
    match bs, h with
    | [], h => simp [Ribzip2.pDeltaLoop] at h
    | [true], h => simp [Ribzip2.pDeltaLoop] at h
    | false :: bs, h =>
      simp only [List.length_cons] at hh hk
      rw [Ribzip2.pDeltaLoop] at h
      split at h
      · simp at h
      · obtain ⟨ls, b, rest, i1, i2, i3⟩ := ih bs.length (by omega) bs _ start (read + 1) (by omega) (by omega) h rfl
        refine ⟨start :: ls, [false] ++ b, rest, by simp; omega, by simp [i2], ?_⟩
        rw [List.append_assoc]
        exact LengthsFrom.cons (LengthSteps.done (by omega) (by omega)) i3
    | true :: false :: bs, h =>
      simp only [List.length_cons] at hh hk
      rw [Ribzip2.pDeltaLoop] at h
      simp only [Bool.false_eq_true, if_false] at h
      rw [if_neg (by omega)] at h
      obtain ⟨ls, b, rest, i1, i2, i3⟩ := ih bs.length (by omega) bs _ (start + 1) read hr (by omega) h rfl
      refine ⟨ls, true :: false :: b, rest, i1, by simp [i2], ?_⟩
      generalize hx : ls ++ [0] = x at i3
      generalize hy : b ++ [false] = y at i3
      cases i3 with
      | nil => simp at hx
      | @cons _ l ls' b1 b2 s1 s2 =>
        have := LengthsFrom.cons (LengthSteps.inc (by omega) (by omega) s1) s2
        simpa [hy] using this
    | true :: true :: bs, h =>
      simp only [List.length_cons] at hh hk
      rw [Ribzip2.pDeltaLoop] at h
      simp only [if_true, subU] at h
      match start, hh, h with
      | 0, _, h =>
        refine ⟨[], [], bs, by simpa using hr, by simp, ?_⟩
        exact LengthsFrom.cons (b2 := []) (LengthSteps.done (by omega) (by omega)) LengthsFrom.nil
      | start + 1, hh, h =>
        simp only [Nat.le_add_left, if_true, Nat.add_sub_cancel] at h
        rw [if_neg (by omega)] at h
        obtain ⟨ls, b, rest, i1, i2, i3⟩ := ih bs.length (by omega) bs _ start read hr (by omega) h rfl
        refine ⟨ls, true :: true :: b, rest, i1, by simp [i2], ?_⟩
        generalize hx : ls ++ [0] = x at i3
        generalize hy : b ++ [false] = y at i3
        cases i3 with
        | nil => simp at hx
        | @cons _ l ls' b1 b2 s1 s2 =>
          have := LengthsFrom.cons (LengthSteps.dec (by omega) (by omega) s1) s2
          simpa [hy] using this

theorem delta_panic {amount : Nat} {bs : List Bit} (ha : 0 < amount) (h : Ribzip2.pDelta amount bs = Res.panic) :
    ∃ hi ls b rest, ls.length < amount ∧ bs = b ++ [true, true] ++ rest ∧ LengthTable 0 hi (ls ++ [0]) (b ++ [false]) := by
  unfold Ribzip2.pDelta at h
  rcases h1 : takeBits 5 bs with ⟨x, b1⟩ | _ | _ | _ <;> simp only [h1, Res.ok_bind, Res.err_bind, Res.panic_bind,
    Res.div_bind, reduceCtorEq] at h
  · obtain ⟨e1, l1⟩ := takeBits_ok h1
    obtain ⟨ls, b, rest, i1, i2, i3⟩ := deltaLoop_panic amount _ b1 [] _ 0 ha (Nat.le_refl _) h
    have hx := bitsToNat_lt x
    rw [l1] at hx
    refine ⟨_, ls, x ++ b, rest, by omega, by rw [e1, i2]; simp, convertToNumber x, b ++ [false], ?_, ?_, i3⟩
    · rw [convertToNumber_eq]; omega
    · rw [convertToNumber_eq, ← l1, natToBits_bitsToNat]; simp
  · unfold takeBits at h1; split at h1 <;> simp at h1

theorem trees_panic {amount : Nat} (ha : 0 < amount) (n : Nat) {bs rest : List Bit} {trees : List (List UInt8)}
    (h : Ribzip2.pTrees amount n bs = Res.panic) (hr : pTrees amount n bs = Res.ok (trees, rest)) :
    ∃ tables bits hi ls b r, tables.length < n ∧ (∀ ls ∈ tables, ls.length = amount) ∧
      List.Forall₂ (fun ls b => ∃ hi, LengthTable 0 hi ls b) tables bits ∧
      ls.length < amount ∧ LengthTable 0 hi (ls ++ [0]) (b ++ [false]) ∧
      bs = bits.flatten ++ b ++ [true, true] ++ r := by
  induction n generalizing bs trees rest with
  | zero => simp [Ribzip2.pTrees] at h
  | succ n ih =>
    rcases agree_delta amount bs with hp | he
    · obtain ⟨hi, ls, b, r, i1, i2, i3⟩ := delta_panic ha hp
      exact ⟨[], [], hi, ls, b, r, by simp, by simp, List.Forall₂.nil, i1, i3, by simp [i2]⟩
    · rw [Ribzip2.pTrees] at h
      rw [pTrees, he] at hr
      rcases h1 : Ribzip2.pDelta amount bs with ⟨tree, b1⟩ | _ | _ | _ <;> simp only [h1, Res.unwrap_ok, Res.unwrap_err,
        Res.unwrap_panic, Res.unwrap_div, Res.ok_bind, Res.panic_bind, Res.div_bind, reduceCtorEq] at h hr
      rcases h2 : Ribzip2.pTrees amount n b1 with ⟨more, b2⟩ | _ | _ | _ <;> simp only [h2, Res.ok_bind, Res.err_bind,
        Res.panic_bind, Res.div_bind, reduceCtorEq, Res.pure_eq] at h
      rcases h3 : pTrees amount n b1 with ⟨more, b3⟩ | _ | _ | _ <;> simp only [h3, Res.ok_bind, Res.err_bind,
        Res.panic_bind, Res.div_bind, reduceCtorEq] at hr
      obtain ⟨ls, b, d1, d2, d3, -⟩ := pDelta_ok ha h1
      obtain ⟨tables, bits, hi, ls', b', r, t1, t2, t3, t4, t5, t6⟩ := ih h2 h3
      refine ⟨ls :: tables, b :: bits, hi, ls', b', r, by simp; omega, by simpa using ⟨d1, t2⟩, List.Forall₂.cons d3 t3,
        t4, t5, ?_⟩
      rw [d2, t6]; simp

theorem buildTables_ne {n : Nat} {trees : List (List UInt8)} (hne : trees ≠ []) (hl : ∀ t ∈ trees, t.length = n + 2)
    {T : List (List CanonicalEntry)} (h : buildTables trees = Res.ok T) : 1 ≤ n := by
  by_contra hn
  have hn : n = 0 := by omega
  subst hn
  match trees, hne, hl with
  | t :: rest, _, hl =>
    have := hl t (by simp)
    simp [buildTables, fromWeights, this, subU] at h

/-- **What the block decoder of release builds accepts.** -/
theorem pBlock_accepts {bs rest : List Bit} {d : List UInt8} (level : Nat) (hlv : level ≤ 9)
    (h : pBlock bs = Res.ok (d, rest)) :
    ∃ bits, bs = natToBits 32 (Spec.crc32 d).toNat ++ bits ∧
      (BlockDeviates level bits ∨ BlockWraps bits ∨ ∃ body, bits = body ++ rest ∧ ValidBody (100000 * level) d body) := by
  rcases agree_block bs with hp | he
  swap
  · rw [he] at h
    obtain ⟨bits, b1, b2⟩ := Ribzip2.pBlock_accepts level hlv h
    exact ⟨bits, b1, b2.imp_right Or.inr⟩
  obtain ⟨body0, hbody0⟩ := pBlock_crc h
  refine ⟨body0 ++ rest, by rw [hbody0, List.append_assoc], ?_⟩
  simp only [pBlock] at h
  simp only [Ribzip2.pBlock] at hp
  rcases h1 : takeBits 32 bs with ⟨crcBits, b1⟩ | _ | _ | _ <;> simp [h1] at h hp
  obtain ⟨e1, l1⟩ := takeBits_ok h1
  have eb1 : b1 = body0 ++ rest := by
    rw [hbody0, List.append_assoc] at e1
    exact (List.append_inj e1.symm (by rw [l1, natToBits_length])).2
  rw [← eb1]
  rcases h2 : takeBits 1 b1 with ⟨x2, b2⟩ | _ | _ | _ <;> simp [h2] at h hp
  rcases h3 : takeBits 24 b2 with ⟨x3, b3⟩ | _ | _ | _ <;> simp [h3] at h hp
  rcases h4 : pSymbolTable b3 with ⟨U, b4⟩ | _ | _ | _ <;> simp [h4] at h hp
  rcases h5 : takeBits 3 b4 with ⟨x5, b5⟩ | _ | _ | _ <;> simp [h5] at h hp
  rcases h6 : takeBits 15 b5 with ⟨x6, b6⟩ | _ | _ | _ <;> simp [h6] at h hp
  obtain ⟨e2, l2⟩ := takeBits_ok h2
  obtain ⟨e3, l3⟩ := takeBits_ok h3
  obtain ⟨ranges, r1, r2, e4, hU⟩ := pSymbolTable_ok h4
  obtain ⟨e5, l5⟩ := takeBits_ok h5
  obtain ⟨e6, l6⟩ := takeBits_ok h6
  obtain ⟨flag, rfl⟩ : ∃ f, x2 = [f] := List.length_eq_one_iff.1 l2
  have hnum : ∀ x : List Bit, convertToNumber x < 2 ^ x.length ∧ natToBits x.length (convertToNumber x) = x := by
    intro x
    rw [convertToNumber_eq]
    exact ⟨bitsToNat_lt x, natToBits_bitsToNat x⟩
  generalize hs : (⟨flag, convertToNumber x3, ranges, convertToNumber x5, convertToNumber x6⟩ : BlockStart) = s
  have hU' : U = s.used := by rw [hU, ← hs]; rfl
  have hfit : s.Fits := by
    have a3 := (hnum x3).1
    have a5 := (hnum x5).1
    have a6 := (hnum x6).1
    rw [l3] at a3; rw [l5] at a5; rw [l6] at a6
    rw [← hs]
    exact ⟨a3, r1, r2, a5, a6⟩
  have hbits : b1 = s.bits ++ b6 := by
    have a3 := (hnum x3).2
    have a5 := (hnum x5).2
    have a6 := (hnum x6).2
    rw [l3] at a3; rw [l5] at a5; rw [l6] at a6
    rw [← hs]
    simp only [BlockStart.bits, a3, a5, a6]
    rw [e2, e3, e4, e5, e6]
    simp
  have n5 : convertToNumber x5 = s.numTables := by rw [← hs]
  have n6 : convertToNumber x6 = s.numSelectors := by rw [← hs]
  have n3 : convertToNumber x3 = s.ptr := by rw [← hs]
  rw [n3, n5, n6, hU'] at h hp
  clear hs hU hU' n3 n5 n6
  by_cases hdev : s.Deviates
  · exact Or.inl (BlockDeviates.start s b6 hfit hbits hdev)
  obtain ⟨d3, d4, d5⟩ : 2 ≤ s.numTables ∧ s.numTables ≤ 6 ∧ 0 < s.numSelectors := by
    simp only [BlockStart.Deviates, not_or, not_lt] at hdev
    obtain ⟨-, -, d3, d4, d5⟩ := hdev
    exact ⟨d3, d4, by omega⟩
  rcases (agree_unaryLoop s.numSelectors b6 [] 0 0 : Agree (Ribzip2.pUnary s.numSelectors b6) (pUnary s.numSelectors b6))
    with hp7 | he7
  · obtain ⟨is, r, i1, i2⟩ := unaryLoop_panic _ _ _ _ _ d5 (by omega) hp7
    refine Or.inr (Or.inl (BlockWraps.selector s is r hfit (by omega) ?_))
    simp only [List.replicate_zero, List.nil_append] at i2
    rw [hbits, i2]; simp only [List.append_assoc]
  change pUnary _ _ = Ribzip2.pUnary _ _ at he7
  rw [he7] at h
  rcases h7 : Ribzip2.pUnary s.numSelectors b6 with ⟨enc, b7⟩ | _ | _ | _ <;> simp [h7] at h hp
  rcases h8 : inverseMtf enc ((List.range s.numTables).map UInt8.ofNat) with sel8 | _ | _ | _ <;> simp [h8] at h hp
  obtain ⟨sel, selBits, s1, s2, s3, s4⟩ := pUnary_ok d5 (by omega) h7 h8
  rcases h9 : pTrees (s.used.length + 2) s.numTables b7 with ⟨trees, b9⟩ | _ | _ | _ <;> simp [h9] at h
  rcases agree_trees (s.used.length + 2) s.numTables b7 with hp9 | he9
  · obtain ⟨tables, bits, hi, ls, b, r, t1, t2, t3, t4, t5, t6⟩ := trees_panic (by omega) _ hp9 h9
    refine Or.inr (Or.inl (BlockWraps.length s sel selBits tables bits hi ls b r hfit s2 s3 t1 t2 t3 t4 t5 ?_))
    rw [hbits, s1, t6]; simp
  rw [h9] at he9
  rw [← he9] at hp
  simp only [Res.ok_bind] at hp
  obtain ⟨tables, tableBits, t1, t2, t3, t4, t5⟩ := pTrees_ok (by omega) _ he9.symm
  generalize ht : (⟨sel, selBits, tables, tableBits⟩ : BlockTables) = t
  have htfit : t.Fits s := by rw [← ht]; exact ⟨s2, s3, t1, t2, t4⟩
  have htbits : b1 = s.bits ++ t.bits ++ b9 := by rw [hbits, s1, t3, ← ht]; simp [BlockTables.bits]
  by_cases htdev : t.Deviates
  · exact Or.inl (BlockDeviates.tables s t b9 hfit htfit htbits htdev)
  exfalso
  obtain ⟨k1, k2⟩ : List.Forall₂ (LengthTable 1 20) tables tableBits ∧ ∀ ls ∈ tables, KraftLe 20 ls := by
    rw [← ht] at htdev
    simpa [BlockTables.Deviates, not_or] using htdev
  have h256 := used_length_le s.used_sorted
  rcases h10 : buildTables trees with T | _ | _ | _ <;> simp [h10] at h
  have hpos : 1 ≤ s.used.length := by
    refine buildTables_ne (n := s.used.length) (trees := trees) ?_ ?_ h10
    · rw [t5]; intro e; simp at e; rw [e] at t1; simp at t1; omega
    · rw [t5]; intro x hx
      obtain ⟨ls, hls, rfl⟩ := List.mem_map.1 hx
      simpa using t2 ls hls
  have htok : TablesOk s.used.length tables := fun ls hls => by
    obtain ⟨bits, hb⟩ := forall₂_left k1 ls hls
    exact ⟨t2 ls hls, k2 ls hls, fun l hl => (lengthTable_bounds hb l hl).1⟩
  have hbuild := buildTables_canon s.used.length hpos h256 tables htok
  rw [← t5] at hbuild
  rcases agree_buildTables trees with hb | hb
  · rw [hbuild] at hb; simp at hb
  · rw [h10] at hb
    rw [← hb] at hp
    simp only [Res.ok_bind] at hp
    rw [hp] at h
    simp at h

end Ribzip2.Release
