import Verif.Proofs.DecoderProps
import Verif.Proofs.Bwt
import Verif.Props.Bwt
import Verif.Model.Stream
/- The block encoder terminates on every input and with every strategy (it may panic). -/
namespace Ribzip2
open Spec

theorem setIdx_ne_div {α : Type} (l : List α) (i : Nat) (x : α) : setIdx l i x ≠ Res.div := by
  unfold setIdx; split <;> simp

theorem subU_ne_div (a b : Nat) : subU a b ≠ Res.div := by unfold subU; split <;> simp

theorem findPos_ne_div (i : UInt8) (l : List UInt8) (p : Nat) : findPos i l p ≠ Res.div := by
  induction l generalizing p with
  | nil => simp [findPos]
  | cons d ds ih => rw [findPos]; split; · simp
                    · exact ih _

theorem mtfLoop_ne_div (l d : List UInt8) : mtfLoop l d ≠ Res.div := by
  induction l generalizing d with
  | nil => simp [mtfLoop]
  | cons v l ih =>
    rw [mtfLoop]
    exact bind_ne_div (findPos_ne_div _ _ _) fun _ => bind_ne_div (bringToFront_ne_div _ _) fun _ =>
      bind_ne_div (ih _) fun _ => by simp

theorem mtf_ne_div (l : List UInt8) : mtf l ≠ Res.div := by
  unfold mtf
  exact bind_ne_div (mtfLoop_ne_div _ _) fun _ => by simp

theorem reportAll_ne_div {σ : Type} (rep : SymbolReporter σ) (h : ∀ s x, rep.report s x ≠ Res.div) (s : σ)
    (l : List ZleSymbol) : reportAll rep s l ≠ Res.div := by
  induction l generalizing s with
  | nil => simp [reportAll]
  | cons x l ih => rw [reportAll]; exact bind_ne_div (h _ _) fun _ => ih _

theorem zleLoop_ne_div {σ : Type} (rep : SymbolReporter σ) (h : ∀ s x, rep.report s x ≠ Res.div)
    (l : List UInt8) (zc : Nat) (r : List ZleSymbol) (s : σ) : zleLoop rep l zc r s ≠ Res.div := by
  induction l generalizing zc r s with
  | nil =>
    rw [zleLoop]
    split
    · exact bind_ne_div (reportAll_ne_div rep h _ _) fun _ => by simp
    · simp
  | cons i l ih =>
    rw [zleLoop]
    split
    · exact ih _ _ _
    · dsimp only
      split
      · refine bind_ne_div (reportAll_ne_div rep h _ _) fun _ => ?_
        rw [Res.pure_eq, Res.ok_bind]
        exact bind_ne_div (h _ _) fun _ => ih _ _ _
      · rw [Res.ok_bind]
        exact bind_ne_div (h _ _) fun _ => ih _ _ _

theorem zleTransform_ne_div {σ : Type} (rep : SymbolReporter σ) (h : ∀ s x, rep.report s x ≠ Res.div)
    (hf : ∀ s, rep.finalize s ≠ Res.div) (s : σ) (l : List UInt8) : zleTransform rep s l ≠ Res.div := by
  unfold zleTransform
  exact bind_ne_div (zleLoop_ne_div rep h _ _ _ _) fun _ => bind_ne_div (h _ _) fun _ =>
    bind_ne_div (hf _) fun _ => by simp

theorem updateLoop_ne_div (l : List (List Nat × UInt8)) (c : List (List Rat)) (s : List Nat) :
    updateLoop l c s ≠ Res.div := by
  induction l generalizing c s with
  | nil => simp [updateLoop]
  | cons p l ih =>
    obtain ⟨p, a⟩ := p
    rw [updateLoop]
    exact bind_ne_div (idx_ne_div _ _) fun _ => bind_ne_div (idx_ne_div _ _) fun _ =>
      bind_ne_div (setIdx_ne_div _ _ _) fun _ => bind_ne_div (setIdx_ne_div _ _ _) fun _ => ih _ _

theorem lloyd_ne_div (dist : Distance) (dim nc : Nat) (data : List (List Nat)) (it : Nat) (c : List (List Rat))
    (a : List UInt8) : lloyd dist dim nc data it c a ≠ Res.div := by
  induction it generalizing c a with
  | zero => simp [lloyd]
  | succ it ih =>
    rw [lloyd]
    exact bind_ne_div (updateLoop_ne_div _ _ _) fun _ => ih _ _

theorem initialCenters_ne_div (data : List (List Nat)) (nc k : Nat) : initialCenters data nc k ≠ Res.div := by
  induction k with
  | zero => simp [initialCenters]
  | succ k ih =>
    rw [initialCenters]
    exact bind_ne_div ih fun _ => bind_ne_div (idx_ne_div _ _) fun _ => by simp

theorem kmeansSolve_ne_div (dist : Distance) (dim : Nat) (data : List (List Nat)) (it nc : Nat) :
    kmeansSolve dist dim data it nc ≠ Res.div := by
  unfold kmeansSolve
  exact bind_ne_div (initialCenters_ne_div _ _ _) fun _ => bind_ne_div (lloyd_ne_div _ _ _ _ _ _ _) fun _ => by simp

theorem zleWithStrategy_ne_div (dist : Distance) (strategy : Strategy) (l : List UInt8) (n : Nat) :
    zleWithStrategy dist strategy l n ≠ Res.div := by
  cases strategy with
  | single =>
    refine zleTransform_ne_div _ (fun s x => ?_) (fun s => ?_) _ _
    · exact bind_ne_div (idx_ne_div _ _) fun _ => bind_ne_div (setIdx_ne_div _ _ _) fun _ => by simp
    · simp [singleReporter, SingleMap.finalize]
  | blockWise nc it =>
    refine zleTransform_ne_div _ (fun s x => ?_) (fun s => ?_) _ _
    · refine bind_ne_div (idx_ne_div _ _) fun c => ?_
      dsimp only
      split
      · rw [Res.ok_bind]
        refine bind_ne_div (setIdx_ne_div _ _ _) fun _ => ?_
        split <;> simp
      · simp
    · exact bind_ne_div (kmeansSolve_ne_div _ _ _ _ _) fun _ => by simp

theorem computeHuffman_ne_div (f : List Nat) : computeHuffman f ≠ Res.div := by
  unfold computeHuffman computeLis packageMerge
  refine bind_ne_div (bind_ne_div ?_ fun _ => bind_ne_div (subU_ne_div _ _) fun _ => by simp) fun _ => by simp
  exact bind_ne_div (ofOption_ne_div _) fun _ => by simp

theorem codeTables_ne_div (f : List (List Nat)) : codeTables f ≠ Res.div := by
  induction f with
  | nil => simp [codeTables]
  | cons x f ih =>
    rw [codeTables]
    exact bind_ne_div (computeHuffman_ne_div _) fun _ => bind_ne_div (canonicalize_ne_div _) fun _ =>
      bind_ne_div ih fun _ => by simp

theorem tableAt_ne_div (t : List (List CanonicalEntry)) (s : List UInt8) (p : Nat) : tableAt t s p ≠ Res.div :=
  bind_ne_div (idx_ne_div _ _) fun _ => idx_ne_div _ _

theorem encodeSymbols_ne_div (t : List (List CanonicalEntry)) (s : List UInt8) (z : List ZleSymbol) (p : Nat) :
    encodeSymbols t s z p ≠ Res.div := by
  induction z generalizing p with
  | nil => simp [encodeSymbols]
  | cons x z ih =>
    rw [encodeSymbols]
    exact bind_ne_div (tableAt_ne_div _ _ _) fun _ => bind_ne_div (ih _) fun _ => by simp

theorem emitBlock_ne_div (crc : BitVec 32) (ptr : Nat) (used : List UInt8) (z : List ZleSymbol)
    (r : ReportedSymbols) : emitBlock crc ptr used z r ≠ Res.div := by
  unfold emitBlock
  refine bind_ne_div (codeTables_ne_div _) fun _ => bind_ne_div ?_ fun _ => bind_ne_div ?_ fun _ =>
    bind_ne_div (encodeSymbols_ne_div _ _ _ _) fun _ => bind_ne_div (tableAt_ne_div _ _ _) fun _ =>
    bind_ne_div (ofOption_ne_div _) fun _ => by simp
  · exact bind_ne_div (mtf_ne_div _) fun _ => by simp
  · exact bind_ne_div (subU_ne_div _ _) fun _ => by simp

theorem bwt_ne_div (s : List UInt8) : bwt s ≠ Res.div := by
  by_cases h : s = []
  · subst h; decide +kernel
  · obtain ⟨last, ptr, h, -, -⟩ := C30_bwt_never_fails s h
    rw [h]; simp

theorem write_ne_div (w : Writer) (bs : List UInt8) : (w.write bs).2 ≠ Res.div := by
  unfold Writer.write
  split <;> simp

theorem writeChunks_ne_div (old : List Bit) (w : Writer) (bits : List Bit) :
    (writeChunks old w bits).2 ≠ Res.div := by
  fun_induction writeChunks old w bits with
  | case1 w b0 b1 b2 b3 b4 b5 b6 b7 rest w' u hw ih => exact ih
  | case2 w b0 b1 b2 b3 b4 b5 b6 b7 rest w' r hn hw =>
    have := write_ne_div w [UInt8.ofNat (convertToNumber [b0, b1, b2, b3, b4, b5, b6, b7])]
    rw [hw] at this
    exact this
  | case3 => simp

theorem writeBits_ne_div (bw : BitWriter) (bits : List Bit) : (bw.writeBits bits).2 ≠ Res.div :=
  writeChunks_ne_div _ _ _

theorem finalize_ne_div (bw : BitWriter) : bw.finalize.2 ≠ Res.div := by
  unfold BitWriter.finalize
  split
  · simp
  · have := write_ne_div bw.w [UInt8.ofNat (convertToNumber (bw.pending ++ List.replicate (8 - bw.pending.length) false))]
    rcases hw : bw.w.write [UInt8.ofNat (convertToNumber (bw.pending ++ List.replicate (8 - bw.pending.length) false))]
      with ⟨w', r⟩
    rw [hw] at this
    dsimp only
    rw [hw]
    exact this

/-- `generate_block_data` terminates. -/
theorem generateBlockData_ne_div (dist : Distance) (strategy : Strategy) (crc : BitVec 32) (rle : List UInt8) :
    generateBlockData dist strategy crc rle ≠ Res.div := by
  unfold generateBlockData
  exact bind_ne_div (bwt_ne_div _) fun _ => bind_ne_div (mtf_ne_div _) fun _ =>
    bind_ne_div (zleWithStrategy_ne_div _ _ _ _) fun _ => emitBlock_ne_div _ _ _ _ _

end Ribzip2
