import Verif.Model.Messages
import Verif.Proofs.Recover
import Verif.Proofs.RecoverRelease
/- `decode_stream` with the lines it prints. -/
namespace Ribzip2
open Spec

theorem pReadBytes_total (n : Nat) (bs : List Bit) (h : 8 * n ≤ bs.length) : ∃ x, pReadBytes n bs = Res.ok x := by
  induction n generalizing bs with
  | zero => exact ⟨_, rfl⟩
  | succ n ih =>
    have h1 : takeBits 8 bs = Res.ok (bs.take 8, bs.drop 8) := by
      rw [takeBits, if_pos (by omega)]
    obtain ⟨x, hx⟩ := ih (bs.drop 8) (by rw [List.length_drop]; omega)
    exact ⟨_, by simp only [pReadBytes, h1, Res.ok_bind, hx]; rfl⟩

theorem readFileHeaderM_fst (br : BitReader) : (readFileHeaderM br).1 = readFileHeader br := by
  unfold readFileHeaderM readFileHeader
  rcases br.readBytes 4 with ⟨res, br'⟩ | _ | _ | _
  · simp only [Res.ok_bind]
    split <;> simp_all
  all_goals rfl

theorem whatNextM_fst (br : BitReader) : (whatNextM br).1 = whatNext br := by
  unfold whatNextM whatNext
  rcases br.readBytes 6 with ⟨res, br'⟩ | _ | _ | _
  · simp only [Res.ok_bind]
    split
    · rfl
    · split <;> rfl
  all_goals rfl

theorem whatNextM_snd (br : BitReader) :
    (whatNextM br).2 = [] ∧ ((whatNext br = Res.err → br.bits.length < 48)) ∨
    (whatNextM br).2 = ["Expected block start or stream end"] ∧ whatNext br = Res.err ∧ 48 ≤ br.bits.length := by
  have ha := absR_readBytes 6 br
  rw [← whatNextM_fst]
  unfold whatNextM
  rcases h : br.readBytes 6 with ⟨res, br'⟩ | _ | _ | _
  · rw [h, absR_ok] at ha
    have hl := (pReadBytes_len ha.symm).1
    simp only
    split
    · exact Or.inl ⟨rfl, fun h => by simp at h⟩
    · split
      · exact Or.inl ⟨rfl, fun h => by simp at h⟩
      · exact Or.inr ⟨rfl, rfl, by omega⟩
  · refine Or.inl ⟨rfl, fun _ => Nat.lt_of_not_le fun hc => ?_⟩
    obtain ⟨x, hx⟩ := pReadBytes_total 6 br.bits (by omega)
    rw [h, hx] at ha
    simp [absR] at ha
  · exact Or.inl ⟨rfl, fun h => by simp at h⟩
  · exact Or.inl ⟨rfl, fun h => by simp at h⟩

theorem readFileHeaderM_snd (br : BitReader) :
    (readFileHeaderM br).2 = [] ∧ (readFileHeader br = Res.err → br.bits.length < 32) ∨
    (readFileHeaderM br).2 = ["Not a valid bz2 file"] ∧ readFileHeader br = Res.err ∧ 32 ≤ br.bits.length := by
  have ha := absR_readBytes 4 br
  rw [← readFileHeaderM_fst]
  unfold readFileHeaderM
  rcases h : br.readBytes 4 with ⟨res, br'⟩ | _ | _ | _
  · rw [h, absR_ok] at ha
    have hl := (pReadBytes_len ha.symm).1
    simp only
    split
    · exact Or.inl ⟨rfl, fun h => by simp at h⟩
    · exact Or.inr ⟨rfl, rfl, by omega⟩
  · refine Or.inl ⟨rfl, fun _ => Nat.lt_of_not_le fun hc => ?_⟩
    obtain ⟨x, hx⟩ := pReadBytes_total 4 br.bits (by omega)
    rw [h, hx] at ha
    simp [absR] at ha
  · exact Or.inl ⟨rfl, fun h => by simp at h⟩
  · exact Or.inl ⟨rfl, fun h => by simp at h⟩

/-- The loop with its lines, of either build, does what the loop does. -/
theorem decodeLoopM_fst (fuel : Nat) (br : BitReader) (w : Writer) :
    ((decodeLoopM decodeBlock fuel br w).1, (decodeLoopM decodeBlock fuel br w).2.1) = decodeLoop fuel br w := by
  induction fuel generalizing br w with
  | zero => rfl
  | succ fuel ih =>
    rw [decodeLoop, ← whatNextM_fst, decodeLoopM]
    rcases whatNextM br with ⟨⟨_ | _, br'⟩ | _ | _ | _, lines⟩ <;> try rfl
    simp only
    rcases decodeBlock br' w with ⟨w', _ | _ | _ | _⟩ <;> try rfl
    exact ih _ _

theorem decodeLoopM_release (fuel : Nat) (br : BitReader) (w : Writer) :
    ((decodeLoopM Release.decodeBlock fuel br w).1, (decodeLoopM Release.decodeBlock fuel br w).2.1)
      = Release.decodeLoop fuel br w := by
  induction fuel generalizing br w with
  | zero => rfl
  | succ fuel ih =>
    rw [Release.decodeLoop, ← whatNextM_fst, decodeLoopM]
    rcases whatNextM br with ⟨⟨_ | _, br'⟩ | _ | _ | _, lines⟩ <;> try rfl
    simp only
    rcases Release.decodeBlock br' w with ⟨w', _ | _ | _ | _⟩ <;> try rfl
    exact ih _ _

theorem decodeStreamM_fst (r : Reader) (w : Writer) :
    ((decodeStreamM decodeBlock r w).1, (decodeStreamM decodeBlock r w).2.1) = decodeStream r w := by
  unfold decodeStream decodeStreamM
  simp only
  rw [← readFileHeaderM_fst]
  rcases readFileHeaderM (BitReader.fromReader r) with ⟨br | _ | _ | _, lines⟩ <;> try rfl
  exact decodeLoopM_fst _ _ _

theorem decodeStreamM_release (r : Reader) (w : Writer) :
    ((decodeStreamM Release.decodeBlock r w).1, (decodeStreamM Release.decodeBlock r w).2.1)
      = Release.decodeStream r w := by
  unfold Release.decodeStream decodeStreamM
  simp only
  rw [← readFileHeaderM_fst]
  rcases readFileHeaderM (BitReader.fromReader r) with ⟨br | _ | _ | _, lines⟩ <;> try rfl
  exact decodeLoopM_release _ _ _

/-- Lines are printed one at most, and only with Err. -/
theorem decodeLoopM_lines (block : BitReader → Writer → Writer × Res BitReader) (fuel : Nat) (br : BitReader) (w : Writer) :
    (decodeLoopM block fuel br w).2.2 = [] ∨
    (decodeLoopM block fuel br w).2.2 = ["Expected block start or stream end"] ∧
      (decodeLoopM block fuel br w).2.1 = Res.err := by
  induction fuel generalizing br w with
  | zero => exact Or.inl rfl
  | succ fuel ih =>
    have hs := whatNextM_snd br
    rw [← whatNextM_fst] at hs
    rw [decodeLoopM]
    generalize whatNextM br = x at hs
    rcases x with ⟨⟨_ | _, br'⟩ | _ | _ | _, lines⟩
    · refine Or.inl ?_
      rcases hs with ⟨h, -⟩ | ⟨-, h, -⟩
      · exact h
      · simp at h
    · have hl : lines = [] := by
        rcases hs with ⟨h, -⟩ | ⟨-, h, -⟩
        · exact h
        · simp at h
      subst hl
      simp only
      rcases block br' w with ⟨w', br2 | _ | _ | _⟩
      · exact ih br2 w'
      all_goals exact Or.inl rfl
    · rcases hs with ⟨h, -⟩ | ⟨h, -⟩
      · exact Or.inl h
      · exact Or.inr ⟨h, rfl⟩
    · rcases hs with ⟨h, -⟩ | ⟨-, h, -⟩
      · exact Or.inl h
      · simp at h
    · rcases hs with ⟨h, -⟩ | ⟨-, h, -⟩
      · exact Or.inl h
      · simp at h

/-- What is used about `decode_block`: it consumes a block and writes its content, or writes nothing. -/
def BlockSound (block : BitReader → Writer → Writer × Res BitReader) : Prop :=
  ∀ br out, (∃ br' d body, block br ⟨out, []⟩ = (⟨out ++ d, []⟩, Res.ok br') ∧
      br.bits = natToBits 32 (Spec.crc32 d).toNat ++ body ++ br'.bits) ∨
    ((block br ⟨out, []⟩).1 = ⟨out, []⟩ ∧ ∀ br', (block br ⟨out, []⟩).2 ≠ Res.ok br')

theorem blockSound : BlockSound decodeBlock := by
  intro br out
  have h := absR_decodeBlockData br
  unfold decodeBlock
  rcases hd : decodeBlockData br with ⟨d, br'⟩ | _ | _ | _
  · rw [hd, absR_ok] at h
    obtain ⟨body, hb, -⟩ := pBlock_good h.symm
    exact Or.inl ⟨br', d, body, rfl, hb⟩
  all_goals exact Or.inr ⟨rfl, fun _ => by simp⟩

theorem blockSound_release : BlockSound Release.decodeBlock := by
  intro br out
  have h := Release.absR_decodeBlockData br
  unfold Release.decodeBlock
  rcases hd : Release.decodeBlockData br with ⟨d, br'⟩ | _ | _ | _
  · rw [hd, absR_ok] at h
    obtain ⟨body, hb, -⟩ := Release.pBlock_good h.symm
    exact Or.inl ⟨br', d, body, rfl, hb⟩
  all_goals exact Or.inr ⟨rfl, fun _ => by simp⟩

theorem decodeLoopM_exact (block : BitReader → Writer → Writer × Res BitReader) (hB : BlockSound block) (fuel : Nat)
    (br : BitReader) (out : List UInt8) (hf : br.bits.length < fuel) :
    ∃ (blocks : List (List UInt8 × List Bool)) (tail : List Bool), br.bits = blockFrames blocks ++ tail ∧
      (decodeLoopM block fuel br ⟨out, []⟩).1.out = out ++ contents blocks ∧
      (decodeLoopM block fuel br ⟨out, []⟩).2.2
        = if 48 ≤ tail.length ∧ tail.take 48 ≠ blockMagic ∧ tail.take 48 ≠ footerMagic
          then ["Expected block start or stream end"] else [] := by
  have hm : blockMagic.length = 48 := by decide
  have hm2 : footerMagic.length = 48 := by decide
  induction fuel generalizing br out with
  | zero => omega
  | succ fuel ih =>
    have hs := whatNextM_snd br
    have ha := absR_whatNext br
    rw [← whatNextM_fst] at hs ha
    rw [decodeLoopM]
    generalize whatNextM br = x at hs ha
    rcases x with ⟨⟨_ | _, br'⟩ | _ | _ | _, lines⟩
    · have hl : lines = [] := by
        rcases hs with ⟨h, -⟩ | ⟨-, h, -⟩
        · exact h
        · simp at h
      subst hl
      rw [absR_ok] at ha
      rcases pWhatNext_inv ha.symm with ⟨h, -⟩ | ⟨-, h⟩
      · simp at h
      · refine ⟨[], br.bits, by simp [blockFrames], by simp [contents], ?_⟩
        rw [if_neg]
        rintro ⟨-, -, h3⟩
        exact h3 (by rw [h, List.take_left' hm2])
    · have hl : lines = [] := by
        rcases hs with ⟨h, -⟩ | ⟨-, h, -⟩
        · exact h
        · simp at h
      subst hl
      rw [absR_ok] at ha
      rcases pWhatNext_inv ha.symm with ⟨-, h⟩ | ⟨h, -⟩
      · simp only
        rcases hB br' out with ⟨br2, d, body, hb, hbits⟩ | ⟨hw, hne⟩
        · rw [hb]
          have hlen : br2.bits.length < fuel := by
            have h1 := congrArg List.length h
            have h2 := congrArg List.length hbits
            simp only [List.length_append] at h1 h2
            omega
          obtain ⟨blocks, tail, g1, g2, g3⟩ := ih br2 (out ++ d) hlen
          refine ⟨(d, body) :: blocks, tail, ?_, ?_, ?_⟩
          · rw [h, hbits, g1, blockFrames_cons]
            simp
          · show (decodeLoopM block fuel br2 ⟨out ++ d, []⟩).1.out = _
            rw [g2]
            simp [contents]
          · exact g3
        · refine ⟨[], br.bits, by simp [blockFrames], ?_, ?_⟩
          · rcases hx : block br' ⟨out, []⟩ with ⟨w', br2 | _ | _ | _⟩
            · rw [hx] at hne; exact absurd rfl (hne br2)
            all_goals
              rw [hx] at hw
              simp only at hw
              subst hw
              simp [contents]
          · rw [if_neg]
            · rcases hx : block br' ⟨out, []⟩ with ⟨w', br2 | _ | _ | _⟩
              · rw [hx] at hne; exact absurd rfl (hne br2)
              all_goals rfl
            · rintro ⟨-, h2, -⟩
              exact h2 (by rw [h, List.take_left' hm])
      · simp at h
    · refine ⟨[], br.bits, by simp [blockFrames], by simp [contents], ?_⟩
      have hn : ∀ t rest, pWhatNext br.bits ≠ Res.ok (t, rest) := by
        intro t rest h
        rw [← ha] at h
        simp [absR] at h
      rcases hs with ⟨h, h2⟩ | ⟨h, -, h2⟩
      · rw [if_neg (fun hc => by have := h2 rfl; omega)]
        exact h
      · rw [if_pos]
        · exact h
        · refine ⟨h2, fun hc => ?_, fun hc => ?_⟩
          · have := pWhatNext_block (br.bits.drop 48)
            rw [← hc, List.take_append_drop] at this
            exact hn _ _ this
          · have := pWhatNext_footer (br.bits.drop 48)
            rw [← hc, List.take_append_drop] at this
            exact hn _ _ this
    · exact absurd ha.symm (pWhatNext_ne br.bits).2
    · exact absurd ha.symm (pWhatNext_ne br.bits).1

end Ribzip2
