import Verif.Proofs.Truncate
import Verif.Proofs.RecoverRelease
/- What the decoder of release builds does when its input ends too early. -/
namespace Ribzip2.Release
open Spec

theorem cut_unaryLoop (amount : Nat) (out : List UInt8) (cur n : Nat) :
    Cut (fun bs => pUnaryLoop amount bs out cur n) Res.err := by
  intro bs a rest h c hc hl
  induction bs generalizing out cur n c with
  | nil => simp [pUnaryLoop] at h
  | cons b bs ih =>
    cases c with
    | nil => rfl
    | cons b' c =>
      obtain ⟨rfl, hc'⟩ := List.cons_prefix_cons.1 hc
      simp only [List.length_cons] at hl
      cases b' <;> simp only [pUnaryLoop] at h ⊢ <;> (repeat' split at h) <;>
        first
        | (simp only [Res.ok.injEq, Prod.mk.injEq] at h; obtain ⟨-, rfl⟩ := h; omega)
        | (simp at h; done)
        | (simp_all only [if_true, if_false]; exact ih _ _ _ h c hc' (by omega))

theorem cut_unary (n : Nat) : Cut (pUnary n) Res.err := cut_unaryLoop n [] 0 0

theorem cut_deltaLoop (amount : Nat) (out : List UInt8) (start n : Nat) :
    Cut (fun bs => pDeltaLoop amount bs out start n) Res.err := by
  intro bs a rest h c hc hl
  induction hk : bs.length using Nat.strongRecOn generalizing bs out start n c with
  | _ len ih =>
    match bs, c with
    | [], _ => simp [pDeltaLoop] at h
    | [true], _ => simp [pDeltaLoop] at h
    | _ :: _, [] => rfl
    | false :: tl, b' :: c =>
      obtain ⟨rfl, hc'⟩ := List.cons_prefix_cons.1 hc
      simp only [List.length_cons] at hl hk
      simp only [pDeltaLoop] at h ⊢
      split at h
      · simp only [Res.ok.injEq, Prod.mk.injEq] at h; obtain ⟨-, rfl⟩ := h; omega
      · rename_i hne
        rw [if_neg hne]
        exact ih tl.length (by omega) _ _ _ tl h c hc' (by omega) rfl
    | true :: b :: tl, [b'] =>
      obtain ⟨rfl, hc'⟩ := List.cons_prefix_cons.1 hc
      rfl
    | true :: b :: tl, b' :: b'' :: c =>
      obtain ⟨rfl, hc'⟩ := List.cons_prefix_cons.1 hc
      obtain ⟨rfl, hc''⟩ := List.cons_prefix_cons.1 hc'
      simp only [List.length_cons] at hl hk
      simp only [pDeltaLoop] at h ⊢
      by_cases hne : n = amount
      · rw [if_pos hne] at h
        simp only [Res.ok.injEq, Prod.mk.injEq] at h; obtain ⟨-, rfl⟩ := h; omega
      · rw [if_neg hne] at h ⊢
        exact ih tl.length (by omega) _ _ _ tl h c hc'' (by omega) rfl

theorem cut_delta (n : Nat) : Cut (pDelta n) Res.err :=
  Cut.bind (e := CutEnd.err) (Local.takeBits 5) (Cut.takeBits 5)
    fun bits => cut_deltaLoop n [] (convertToNumber bits) 0

theorem cut_trees (amount n : Nat) : Cut (pTrees amount n) (CutEnd.panic.res) := by
  induction n with
  | zero => exact Cut.pure [] _
  | succ n ih =>
    exact Cut.bind (Local.unwrap (local_delta amount)) (Cut.unwrap (cut_delta amount)) fun _ =>
      Cut.bind (local_trees amount n) ih fun _ => Cut.pure _ _

/-- A block that is cut off: the one-bit field is read with `?`, everything else with `unwrap`. -/
theorem pBlock_cut {bs : List Bit} {d : List UInt8} {rest : List Bit} (h : pBlock bs = Res.ok (d, rest)) {c : List Bit}
    (hc : c <+: bs) (hl : c.length + rest.length < bs.length) :
    pBlock c = if c.length = 32 then Res.err else Res.panic := by
  have hrest : ∀ crcBits : List Bit, Cut (fun bs => do
      let (ptrBits, bs) ← (takeBits 24 bs).unwrap
      let (symbols, bs) ← (pSymbolTable bs).unwrap
      let (treeBits, bs) ← (takeBits 3 bs).unwrap
      let (selBits, bs) ← (takeBits 15 bs).unwrap
      let (selectors, bs) ← (pUnary (convertToNumber selBits) bs).unwrap
      let selectors ← inverseMtf selectors ((List.range (convertToNumber treeBits)).map UInt8.ofNat)
      let (trees, bs) ← pTrees (symbols.length + 2) (convertToNumber treeBits) bs
      let tables ← buildTables trees
      let (zleInput, bs) ← pGroups tables selectors bs
      let decoded ← finishBlock (BitVec.ofNat 32 (convertToNumber crcBits)) (convertToNumber ptrBits)
        symbols zleInput
      pure (decoded, bs)) (CutEnd.panic.res) := by
    intro crcBits
    refine Cut.bind (Local.unwrap (Local.takeBits 24)) (Cut.unwrap (Cut.takeBits 24)) fun _ => ?_
    refine Cut.bind (Local.unwrap Local.symbolTable) (Cut.unwrap Cut.symbolTable) fun _ => ?_
    refine Cut.bind (Local.unwrap (Local.takeBits 3)) (Cut.unwrap (Cut.takeBits 3)) fun _ => ?_
    refine Cut.bind (Local.unwrap (Local.takeBits 15)) (Cut.unwrap (Cut.takeBits 15)) fun _ => ?_
    refine Cut.bind (Local.unwrap (local_unary _)) (Cut.unwrap (cut_unary _)) fun _ => ?_
    refine Cut.bindPure fun _ => ?_
    refine Cut.bind (local_trees _ _) (cut_trees _ _) fun _ => ?_
    refine Cut.bindPure fun _ => ?_
    refine Cut.bind (Local.groups _ _) (Cut.groups _ _) fun _ => ?_
    refine Cut.bindPure fun _ => ?_
    exact Cut.pure _ _
  rw [pBlock] at h ⊢
  obtain ⟨⟨crcBits, m1⟩, a1, h⟩ := bind_is_ok.1 h
  obtain ⟨⟨rand, m2⟩, a2, h⟩ := bind_is_ok.1 h
  obtain ⟨e1, l1⟩ := takeBits_ok (Res.unwrap_eq_ok.1 a1)
  obtain ⟨e2, l2⟩ := takeBits_ok a2
  have n1 := congrArg List.length e1
  have n2 := congrArg List.length e2
  rw [List.length_append] at n1 n2
  by_cases k1 : c.length < 32
  · rw [if_neg (by omega), takeBits, if_neg (by omega)]
    rfl
  · obtain ⟨c1, b1, b2, b3⟩ := (Local.unwrap (Local.takeBits 32)).cut a1 hc (by omega)
    simp only [b1, Res.ok_bind]
    by_cases k2 : c.length = 32
    · rw [if_pos k2, takeBits, if_neg (by omega)]
      rfl
    · rw [if_neg k2]
      obtain ⟨c2, b4, b5, b6⟩ := (Local.takeBits 1).cut a2 b2 (by omega)
      simp only [b4, Res.ok_bind]
      exact hrest crcBits m2 d rest h c2 b5 (by omega)

/-- How the decoder ends on an input that is cut off before the end-of-stream marker is complete. -/
theorem pBlocks_cut_end (bodies : List (List UInt8 × List Bool)) (hg : ∀ b ∈ bodies, GoodBlock b) (t : List Bit)
    (bs : List Bit) (hbs : bs <+: blockFrames bodies ++ (footerMagic ++ t))
    (hl : bs.length < (blockFrames bodies).length + 48) :
    (InsideBlock bodies bs.length → (pBlocks (bs.length + 1) bs).2 = Res.panic) ∧
    (¬ InsideBlock bodies bs.length → (pBlocks (bs.length + 1) bs).2 = Res.err) := by
  have h3 : blockMagic.length = 48 := by decide
  induction bodies generalizing bs with
  | nil =>
    simp only [blockFrames, List.flatMap_nil, List.length_nil] at hl
    refine ⟨fun ⟨i, hi, _⟩ => by simp at hi, fun _ => ?_⟩
    rw [pBlocks, pWhatNext_short bs (by omega)]
  | cons b bodies ih =>
    have htake : ∀ i, (blockFrames ((b :: bodies).take (i + 1))).length
        = (blockFrames [b]).length + (blockFrames (bodies.take i)).length := by
      intro i; simp [blockFrames]
    have hone : (blockFrames [b]).length = 48 + (natToBits 32 (Spec.crc32 b.1).toNat ++ b.2).length := by
      rw [blockFrames_cons, List.length_append, h3]; simp [blockFrames]
    have hall : (blockFrames (b :: bodies)).length = (blockFrames [b]).length + (blockFrames bodies).length := by
      simp [blockFrames]
    have hsplit : blockFrames (b :: bodies) ++ (footerMagic ++ t)
        = blockFrames [b] ++ (blockFrames bodies ++ (footerMagic ++ t)) := by
      simp [blockFrames]
    rw [hsplit] at hbs
    by_cases hlen : (blockFrames [b]).length ≤ bs.length
    · have hpre : blockFrames [b] <+: bs :=
        List.prefix_of_prefix_length_le ⟨_, rfl⟩ hbs hlen
      obtain ⟨bs', rfl⟩ := hpre
      have hbs' : bs' <+: blockFrames bodies ++ (footerMagic ++ t) := by
        obtain ⟨e, he⟩ := hbs
        refine ⟨e, ?_⟩
        rw [List.append_assoc] at he
        exact List.append_cancel_left he
      rw [List.length_append] at hl
      obtain ⟨ih1, ih2⟩ := ih (fun b hb => hg b (by simp [hb])) bs' hbs' (by omega)
      have hiff : InsideBlock (b :: bodies) (blockFrames [b] ++ bs').length ↔ InsideBlock bodies bs'.length := by
        rw [List.length_append]
        constructor
        · rintro ⟨i, hi, k1, k2, k3⟩
          cases i with
          | zero =>
            have := htake 0
            simp only [List.take_zero, blockFrames, List.flatMap_nil, List.length_nil] at this k2
            simp only [blockFrames] at k1
            omega
          | succ i =>
            rw [htake] at k1 k2 k3
            exact ⟨i, by simpa using hi, by omega, by omega, by omega⟩
        · rintro ⟨i, hi, k1, k2, k3⟩
          refine ⟨i + 1, by simpa using hi, ?_, ?_, ?_⟩ <;> rw [htake] <;> omega
      rw [hiff, pBlocks_append [b] (by intro x hx; exact hg x (by simp at hx; simp [hx])) bs' _ (by omega)]
      exact ⟨ih1, ih2⟩
    · by_cases h48 : bs.length < 48
      · refine ⟨fun ⟨i, hi, k1, _⟩ => by omega, fun _ => ?_⟩
        rw [pBlocks, pWhatNext_short bs h48]
      · rw [show blockFrames [b] = blockMagic ++ (natToBits 32 (Spec.crc32 b.1).toNat ++ b.2) by
          rw [blockFrames_cons]; simp [blockFrames], List.append_assoc] at hbs
        have hpre : blockMagic <+: bs := List.prefix_of_prefix_length_le ⟨_, rfl⟩ hbs (by omega)
        obtain ⟨c, rfl⟩ := hpre
        have hc := (List.prefix_append_right_inj _).1 hbs
        rw [List.length_append] at hlen h48
        have hb := pBlock_cut (hg b (by simp) (blockFrames bodies ++ (footerMagic ++ t))) hc
          (by
            simp only [List.length_append] at hone hlen ⊢
            omega)
        have hin : InsideBlock (b :: bodies) (blockMagic ++ c).length ↔ c.length ≠ 32 := by
          rw [List.length_append, h3]
          constructor
          · rintro ⟨i, hi, k1, k2, k3⟩
            cases i with
            | zero =>
              simp only [List.take_zero, blockFrames, List.flatMap_nil, List.length_nil] at k3
              omega
            | succ i =>
              rw [htake] at k1
              omega
          · intro h
            refine ⟨0, by simp, ?_, ?_, ?_⟩
            · simp [blockFrames]
            · rw [htake]; omega
            · simp only [List.take_zero, blockFrames, List.flatMap_nil, List.length_nil]; omega
        rw [hin, pBlocks, pWhatNext_block]
        by_cases h32 : c.length = 32
        · simp [hb, h32]
        · simp [hb, h32]

end Ribzip2.Release
