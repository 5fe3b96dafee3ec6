import Verif.Proofs.DecoderProps
/- Blocks that are completely there are decoded, whatever follows them. -/
namespace Ribzip2
open Spec

/-- The decoder reads this block, whatever comes after it. -/
def GoodBlock (b : List UInt8 × List Bool) : Prop :=
  ∀ rest, pBlock (natToBits 32 (Spec.crc32 b.1).toNat ++ b.2 ++ rest) = Res.ok (b.1, rest)

theorem pBlock_good {bs : List Bit} {d : List UInt8} {rest : List Bit} (h : pBlock bs = Res.ok (d, rest)) :
    ∃ body, bs = natToBits 32 (Spec.crc32 d).toNat ++ body ++ rest ∧ GoodBlock (d, body) := by
  obtain ⟨body, hbody⟩ := pBlock_crc h
  obtain ⟨used, hu, hloc⟩ := Local.block _ _ _ h
  refine ⟨body, hbody, fun r => ?_⟩
  have : used = natToBits 32 (Spec.crc32 d).toNat ++ body := by
    rw [hu] at hbody
    exact List.append_cancel_right hbody
  rw [← this]
  exact hloc r

theorem blockFrames_cons (b : List UInt8 × List Bool) (bs : List (List UInt8 × List Bool)) :
    blockFrames (b :: bs) = blockMagic ++ (natToBits 32 (Spec.crc32 b.1).toNat ++ b.2 ++ blockFrames bs) := by
  simp [blockFrames, blockFrame]

theorem pBlocks_splits (fuel : Nat) (bs : List Bit) (hf : bs.length < fuel) :
    ∃ bodies : List (List UInt8 × List Bool), ∃ tail,
      (pBlocks fuel bs).1 = bodies.map (·.1) ∧ bs = blockFrames bodies ++ tail ∧ (∀ b ∈ bodies, GoodBlock b) ∧
      (pBlocks (tail.length + 1) tail).1 = [] ∧ (pBlocks (tail.length + 1) tail).2 = (pBlocks fuel bs).2 ∧
      ((pBlocks fuel bs).2 = Res.ok () → ∃ t, tail = footerMagic ++ t) := by
  induction fuel generalizing bs with
  | zero => omega
  | succ fuel ih =>
    have stop : (pBlocks (fuel + 1) bs).1 = [] → ((pBlocks (fuel + 1) bs).2 = Res.ok () → ∃ t, bs = footerMagic ++ t) →
        ∃ bodies : List (List UInt8 × List Bool), ∃ tail,
      (pBlocks (fuel + 1) bs).1 = bodies.map (·.1) ∧ bs = blockFrames bodies ++ tail ∧ (∀ b ∈ bodies, GoodBlock b) ∧
      (pBlocks (tail.length + 1) tail).1 = [] ∧ (pBlocks (tail.length + 1) tail).2 = (pBlocks (fuel + 1) bs).2 ∧
      ((pBlocks (fuel + 1) bs).2 = Res.ok () → ∃ t, tail = footerMagic ++ t) := by
      intro h1 h2
      refine ⟨[], bs, by simp [h1], by simp [blockFrames], by simp, ?_, ?_, h2⟩
      · rw [pBlocks_fuel (bs.length + 1) (fuel + 1) bs (by omega) hf, h1]
      · rw [pBlocks_fuel (bs.length + 1) (fuel + 1) bs (by omega) hf]
    rcases hwn : pWhatNext bs with ⟨t, mid⟩ | _ | _ | _
    · rcases pWhatNext_inv hwn with ⟨rfl, e⟩ | ⟨rfl, e⟩
      · rcases hbn : pBlock mid with ⟨d, rest⟩ | _ | _ | _
        · obtain ⟨body, hbody, hgood⟩ := pBlock_good hbn
          have hlen : rest.length < fuel := by
            have h1 := congrArg List.length e
            have h2 := congrArg List.length hbody
            have h3 : blockMagic.length = 48 := by decide
            simp only [List.length_append] at h1 h2
            omega
          obtain ⟨bodies, tail, g1, g2, g3, g4, g5, g6⟩ := ih rest hlen
          refine ⟨(d, body) :: bodies, tail, by simp [pBlocks, hwn, hbn, g1], ?_, ?_, g4, ?_, ?_⟩
          · rw [e, hbody, g2, blockFrames_cons]
            simp
          · intro b hb
            rcases List.mem_cons.1 hb with rfl | hb
            · exact hgood
            · exact g3 b hb
          · simpa [pBlocks, hwn, hbn] using g5
          · simpa [pBlocks, hwn, hbn] using g6
        all_goals exact stop (by simp [pBlocks, hwn, hbn]) (by simp [pBlocks, hwn, hbn])
      · exact stop (by simp [pBlocks, hwn]) (fun _ => ⟨mid, e⟩)
    all_goals exact stop (by simp [pBlocks, hwn]) (by simp [pBlocks, hwn])

theorem pBlocks_append (bodies : List (List UInt8 × List Bool)) (hg : ∀ b ∈ bodies, GoodBlock b) (rest : List Bit)
    (fuel : Nat) (hf : (blockFrames bodies ++ rest).length < fuel) :
    pBlocks fuel (blockFrames bodies ++ rest) =
      (bodies.map (·.1) ++ (pBlocks (rest.length + 1) rest).1, (pBlocks (rest.length + 1) rest).2) := by
  induction bodies generalizing fuel with
  | nil =>
    simp only [blockFrames, List.flatMap_nil, List.nil_append, List.map_nil] at hf ⊢
    rw [pBlocks_fuel fuel (rest.length + 1) rest hf (by omega)]
  | cons b bodies ih =>
    cases fuel with
    | zero => omega
    | succ fuel =>
      rw [blockFrames_cons] at hf ⊢
      have h3 : blockMagic.length = 48 := by decide
      simp only [List.length_append] at hf
      rw [List.append_assoc blockMagic, pBlocks, pWhatNext_block, List.append_assoc _ (blockFrames bodies) rest]
      simp only [hg b (by simp) (blockFrames bodies ++ rest)]
      rw [ih (fun b hb => hg b (by simp [hb])) fuel (by simp only [List.length_append]; omega)]
      simp

/-- Cutting off the input keeps exactly the blocks that are complete. -/
theorem pBlocks_cutoff (bodies : List (List UInt8 × List Bool)) (hg : ∀ b ∈ bodies, GoodBlock b) (tail : List Bit)
    (ht : (pBlocks (tail.length + 1) tail).1 = []) (bs : List Bit) (hbs : bs <+: blockFrames bodies ++ tail) :
    ∃ i ≤ bodies.length, (pBlocks (bs.length + 1) bs).1 = (bodies.take i).map (·.1) ∧
      (blockFrames (bodies.take i)).length ≤ bs.length ∧
      (i < bodies.length → bs.length < (blockFrames (bodies.take (i + 1))).length) := by
  induction bodies generalizing bs with
  | nil =>
    refine ⟨0, by simp, ?_, by simp [blockFrames], by simp⟩
    simp only [blockFrames, List.flatMap_nil, List.nil_append] at hbs
    obtain ⟨e, he⟩ := hbs
    have := (pBlocks_mono (tail.length + 1) bs e).1
    rw [he, ht] at this
    have hl := congrArg List.length he
    rw [List.length_append] at hl
    rw [pBlocks_fuel (bs.length + 1) (tail.length + 1) bs (by omega) (by omega)]
    simpa using this
  | cons b bodies ih =>
    have hsplit : blockFrames (b :: bodies) ++ tail = blockFrames [b] ++ (blockFrames bodies ++ tail) := by
      simp [blockFrames]
    have htake : ∀ i, (blockFrames ((b :: bodies).take (i + 1))).length
        = (blockFrames [b]).length + (blockFrames (bodies.take i)).length := by
      intro i; simp [blockFrames]
    rw [hsplit] at hbs
    by_cases hlen : (blockFrames [b]).length ≤ bs.length
    · have hpre : blockFrames [b] <+: bs :=
        List.prefix_of_prefix_length_le ⟨_, rfl⟩ hbs hlen
      obtain ⟨bs', rfl⟩ := hpre
      have hbs' : bs' <+: blockFrames bodies ++ tail := by
        obtain ⟨e, he⟩ := hbs
        refine ⟨e, ?_⟩
        rw [List.append_assoc] at he
        exact List.append_cancel_left he
      obtain ⟨i, h1, h2, h3, h4⟩ := ih (fun b hb => hg b (by simp [hb])) bs' hbs'
      refine ⟨i + 1, by simp; omega, ?_, ?_, ?_⟩
      · rw [pBlocks_append [b] (by intro x hx; exact hg x (by simp at hx; simp [hx])) bs' _ (by omega), h2]
        simp
      · rw [htake, List.length_append]; omega
      · intro hi
        rw [htake, List.length_append]
        have := h4 (by simpa using hi)
        omega
    · refine ⟨0, by simp, ?_, by simp [blockFrames], fun _ => ?_⟩
      · simp only [List.take_zero, List.map_nil]
        rw [pBlocks]
        rcases hwn : pWhatNext bs with ⟨t, mid⟩ | _ | _ | _
        · rcases pWhatNext_inv hwn with ⟨rfl, e⟩ | ⟨rfl, e⟩
          · rcases hbn : pBlock mid with ⟨d, rest⟩ | _ | _ | _
            · exfalso
              obtain ⟨y, hy⟩ := hbs
              obtain ⟨used, hu, hloc⟩ := Local.block _ _ _ hbn
              have hb := hg b (by simp) (blockFrames bodies ++ tail)
              have he : natToBits 32 (Spec.crc32 b.1).toNat ++ b.2 ++ (blockFrames bodies ++ tail) = used ++ (rest ++ y) := by
                rw [e, hu, blockFrames_cons] at hy
                have : blockMagic ++ (used ++ (rest ++ y)) = blockMagic ++
                    (natToBits 32 (Spec.crc32 b.1).toNat ++ b.2 ++ (blockFrames bodies ++ tail)) := by
                  simpa [blockFrames] using hy
                exact (List.append_cancel_left this).symm
              rw [he, hloc] at hb
              simp only [Res.ok.injEq, Prod.mk.injEq] at hb
              rw [← hb.2] at he
              have hu2 := List.append_cancel_right he
              apply hlen
              rw [blockFrames_cons, e, hu, ← hu2]
              simp [blockFrames]
            all_goals simp [hbn]
          · rfl
        all_goals rfl
      · simpa [blockFrames] using hlen

/-- The result for a shortened input: success exactly if the end-of-stream marker is there. -/
theorem pBlocks_cutoff_ok (bodies : List (List UInt8 × List Bool)) (hg : ∀ b ∈ bodies, GoodBlock b) (t : List Bit)
    (bs : List Bit) (hbs : bs <+: blockFrames bodies ++ (footerMagic ++ t)) :
    (pBlocks (bs.length + 1) bs).2 = Res.ok () ↔ (blockFrames bodies).length + 48 ≤ bs.length := by
  have hm : footerMagic.length = 48 := by decide
  constructor
  · intro hok
    obtain ⟨bodies', tail, g1, g2, g3, g4, g5, g6⟩ := pBlocks_splits (bs.length + 1) bs (by omega)
    obtain ⟨t', ht'⟩ := g6 hok
    obtain ⟨e, he⟩ := hbs
    -- both descriptions of the whole have the same blocks
    have key : ∀ (bodies bodies' : List (List UInt8 × List Bool)) (x y : List Bit), (∀ b ∈ bodies, GoodBlock b) →
        (∀ b ∈ bodies', GoodBlock b) → blockFrames bodies ++ (footerMagic ++ x) = blockFrames bodies' ++ (footerMagic ++ y) →
        bodies = bodies' := by
      intro bodies
      induction bodies with
      | nil =>
        intro bodies' x y _ k2 k3
        cases bodies' with
        | nil => rfl
        | cons b bodies' =>
          have h1 := pWhatNext_footer x
          simp only [blockFrames, List.flatMap_nil, List.nil_append] at k3
          rw [k3] at h1
          have h2 := blockFrames_cons b bodies'
          simp only [blockFrames] at h2
          rw [h2, List.append_assoc blockMagic, pWhatNext_block] at h1
          simp at h1
      | cons b bodies ih =>
        intro bodies' x y k1 k2 k3
        cases bodies' with
        | nil =>
          have h1 := pWhatNext_footer y
          simp only [blockFrames, List.flatMap_nil, List.nil_append] at k3
          rw [← k3] at h1
          have h2 := blockFrames_cons b bodies
          simp only [blockFrames] at h2
          rw [h2, List.append_assoc blockMagic, pWhatNext_block] at h1
          simp at h1
        | cons b' bodies' =>
          rw [blockFrames_cons, blockFrames_cons, List.append_assoc blockMagic, List.append_assoc blockMagic] at k3
          have k4 := List.append_cancel_left k3
          rw [List.append_assoc, List.append_assoc (natToBits 32 (Spec.crc32 b'.1).toNat ++ b'.2)] at k4
          have e1 := k1 b (by simp) (blockFrames bodies ++ (footerMagic ++ x))
          have e2 := k2 b' (by simp) (blockFrames bodies' ++ (footerMagic ++ y))
          rw [k4, e2] at e1
          simp only [Res.ok.injEq, Prod.mk.injEq] at e1
          obtain ⟨f1, f2⟩ := e1
          have hrest := ih bodies' x y (fun b hb => k1 b (by simp [hb])) (fun b hb => k2 b (by simp [hb])) f2.symm
          rw [← f2] at k4
          have k5 := List.append_cancel_right k4
          rw [f1] at k5
          have k6 := List.append_cancel_left k5
          rw [hrest, Prod.ext f1.symm k6]
    have := key bodies bodies' t (t' ++ e) hg g3 (by rw [← he, g2, ht']; simp)
    rw [this]
    have hl := congrArg List.length g2
    rw [ht'] at hl
    simp only [List.length_append] at hl
    omega
  · intro hlen
    have hpre : blockFrames bodies ++ footerMagic <+: bs :=
      List.prefix_of_prefix_length_le ⟨t, by simp⟩ hbs (by simp only [List.length_append]; omega)
    obtain ⟨z, rfl⟩ := hpre
    rw [List.append_assoc, pBlocks_append bodies hg (footerMagic ++ z) _ (by omega)]
    rw [pBlocks, pWhatNext_footer]

end Ribzip2
