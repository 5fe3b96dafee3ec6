import Verif.Proofs.Decoder
import Verif.Spec.Lengths
namespace Ribzip2
open Spec

theorem lengthSteps_bounds {lo hi c l : Nat} {bs : List Bool} (h : LengthSteps lo hi c l bs) :
    lo ≤ l ∧ l ≤ hi := by
  induction h with
  | done h1 h2 => exact ⟨h1, h2⟩
  | inc _ _ _ ih => exact ih
  | dec _ _ _ ih => exact ih

theorem lengthsFrom_bounds {lo hi c : Nat} {ls : List Nat} {bs : List Bool}
    (h : LengthsFrom lo hi c ls bs) : ∀ l ∈ ls, lo ≤ l ∧ l ≤ hi := by
  induction h with
  | nil => simp
  | cons h1 _ ih =>
    intro l hl
    rcases List.mem_cons.1 hl with rfl | hl
    · exact lengthSteps_bounds h1
    · exact ih l hl

/-! ### Reading -/

theorem pDeltaLoop_steps {lo hi c l : Nat} {bs : List Bool} (h : LengthSteps lo hi c l bs)
    (amount : Nat) (rest : List Bit) (out : List UInt8) (read : Nat) (hr : read < amount) :
    pDeltaLoop amount (bs ++ rest) out c read =
      if read + 1 = amount then Res.ok (out ++ [UInt8.ofNat l], rest)
      else pDeltaLoop amount rest (out ++ [UInt8.ofNat l]) l (read + 1) := by
  induction h with
  | done => rfl
  | inc _ _ _ ih =>
    rw [List.cons_append, List.cons_append, pDeltaLoop]
    simp only [Bool.false_eq_true, if_false]
    rw [if_neg (by omega), ih]
  | dec _ _ _ ih =>
    rw [List.cons_append, List.cons_append, pDeltaLoop]
    simp only [if_true, subU, Nat.le_add_left, Nat.add_sub_cancel]
    rw [if_neg (by omega), ih]

theorem pDeltaLoop_from {lo hi c : Nat} {ls : List Nat} {bs : List Bool}
    (h : LengthsFrom lo hi c ls bs) (amount : Nat) (rest : List Bit) (out : List UInt8) (read : Nat)
    (hr : read + ls.length = amount) (hne : ls ≠ []) :
    pDeltaLoop amount (bs ++ rest) out c read = Res.ok (out ++ ls.map UInt8.ofNat, rest) := by
  induction h generalizing out read with
  | nil => simp at hne
  | @cons c l ls b1 b2 h1 h2 ih =>
    simp only [List.length_cons] at hr
    rw [List.append_assoc, pDeltaLoop_steps h1 amount _ _ _ (by omega)]
    by_cases hls : ls = []
    · subst hls
      cases h2
      rw [if_pos (by simpa using hr)]
      simp
    · have : 0 < ls.length := by
        cases ls with
        | nil => simp at hls
        | cons => simp
      rw [if_neg (by omega), ih _ _ (by omega) hls]
      simp

/-- The library reads back every transmission of a non-empty list of lengths. -/
theorem pDelta_table {lo hi : Nat} {ls : List Nat} {bs : List Bool} (h : LengthTable lo hi ls bs)
    (hne : ls ≠ []) (rest : List Bit) :
    pDelta ls.length (bs ++ rest) = Res.ok (ls.map UInt8.ofNat, rest) := by
  obtain ⟨start, b, hs, rfl, hf⟩ := h
  unfold pDelta
  rw [List.append_assoc, takeBits_append (by simp)]
  simp only [Res.ok_bind, convertToNumber_eq, bitsToNat_natToBits]
  rw [Nat.mod_eq_of_lt (by omega), pDeltaLoop_from hf _ _ _ _ (by omega) hne]
  simp

/-! ### Writing -/

theorem lengthSteps_up (lo hi c k : Nat) (h1 : lo ≤ c) (h2 : c + k ≤ hi) :
    LengthSteps lo hi c (c + k) ((List.replicate k [true, false]).flatten ++ [false]) := by
  induction k generalizing c with
  | zero => exact LengthSteps.done h1 (by omega)
  | succ k ih =>
    rw [List.replicate_succ, List.flatten_cons]
    have := ih (c + 1) (by omega) (by omega)
    rw [show c + 1 + k = c + (k + 1) by omega] at this
    exact LengthSteps.inc h1 (by omega) this

theorem lengthSteps_down (lo hi l k : Nat) (h1 : lo ≤ l) (h2 : l + k ≤ hi) :
    LengthSteps lo hi (l + k) l ((List.replicate k [true, true]).flatten ++ [false]) := by
  induction k with
  | zero => exact LengthSteps.done h1 (by omega)
  | succ k ih =>
    rw [List.replicate_succ, List.flatten_cons]
    exact LengthSteps.dec (c := l + k) (by omega) (by omega) (ih (by omega))

theorem flatMap_replicate_delta (k : Nat) (s : DeltaSymbol) :
    (List.replicate k s).flatMap deltaBits = (List.replicate k (deltaBits s)).flatten := by
  induction k with
  | zero => rfl
  | succ k ih => rw [List.replicate_succ, List.flatMap_cons, ih, List.replicate_succ, List.flatten_cons]

theorem deltaLoop_from (lo hi : Nat) (last : UInt8) (ls : List UInt8) (h0 : lo ≤ last.toNat)
    (h1 : last.toNat ≤ hi) (h : ∀ l ∈ ls, lo ≤ l.toNat ∧ l.toNat ≤ hi) :
    LengthsFrom lo hi last.toNat (ls.map UInt8.toNat) ((deltaLoop last ls).flatMap deltaBits) := by
  induction ls generalizing last with
  | nil => exact LengthsFrom.nil
  | cons l ls ih =>
    obtain ⟨g1, g2⟩ := h l (by simp)
    rw [deltaLoop]
    simp only [List.map_cons, List.flatMap_append]
    refine LengthsFrom.cons ?_ (ih l g1 g2 (fun x hx => h x (by simp [hx])))
    by_cases hd : (last.toNat : Int) - l.toNat > 0
    · rw [if_pos hd, flatMap_replicate_delta]
      have := lengthSteps_down lo hi l.toNat (last.toNat - l.toNat) g1 (by omega)
      rw [show l.toNat + (last.toNat - l.toNat) = last.toNat by omega] at this
      rw [show ((last.toNat : Int) - l.toNat).natAbs = last.toNat - l.toNat by omega]
      exact this
    · rw [if_neg hd]
      by_cases hd2 : (last.toNat : Int) - l.toNat < 0
      · rw [if_pos hd2, flatMap_replicate_delta]
        have := lengthSteps_up lo hi last.toNat (l.toNat - last.toNat) h0 (by omega)
        rw [show last.toNat + (l.toNat - last.toNat) = l.toNat by omega] at this
        rw [show ((last.toNat : Int) - l.toNat).natAbs = l.toNat - last.toNat by omega]
        exact this
      · rw [if_neg hd2]
        have : last.toNat = l.toNat := by omega
        rw [this]
        exact LengthSteps.done g1 g2

/-- The library's transmission of code lengths is one allowed by the format. -/
theorem encodeBitLengths_table (lo hi : Nat) (l : UInt8) (ls : List UInt8) (hl : l.toNat < 32)
    (h : ∀ x ∈ l :: ls, lo ≤ x.toNat ∧ x.toNat ≤ hi) :
    LengthTable lo hi ((l :: ls).map UInt8.toNat) (encodeBitLengths (l :: ls)) := by
  obtain ⟨g1, g2⟩ := h l (by simp)
  refine ⟨l.toNat, (DeltaSymbol.stop :: deltaLoop l ls).flatMap deltaBits, hl, ?_, ?_⟩
  · simp only [encodeBitLengths, encodeDelta]
    rw [convertToCodePadToNBits_eq _ _ (by omega)]
  · rw [List.map_cons, List.flatMap_cons]
    exact LengthsFrom.cons (LengthSteps.done g1 g2)
      (deltaLoop_from lo hi l ls g1 g2 (fun x hx => h x (by simp [hx])))

theorem map_ofNat_toNat (l : List UInt8) : (l.map UInt8.toNat).map UInt8.ofNat = l := by
  rw [List.map_map, show UInt8.ofNat ∘ UInt8.toNat = id by funext x; simp, List.map_id]

theorem map_toNat_ofNat (l : List Nat) (h : ∀ x ∈ l, x < 256) : (l.map UInt8.ofNat).map UInt8.toNat = l := by
  rw [List.map_map]
  conv => rhs; rw [← List.map_id l]
  apply List.map_congr_left
  intro x hx
  exact UInt8.toNat_ofNat_of_lt' (h x hx)

end Ribzip2
