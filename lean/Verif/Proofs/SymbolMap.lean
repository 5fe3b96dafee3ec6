import Verif.Proofs.Mtf
import Verif.Proofs.Decoder
import Verif.Spec.SymbolMap
namespace Ribzip2
open Spec

/-- What `used_symbols_details` should hold for range `r`. -/
def detailOf (U : List UInt8) (r : Nat) : Option (List Bit) :=
  if rangeUsed U r then some ((List.range 16).map fun j => decide (UInt8.ofNat (16 * r + j) ∈ U))
  else none

theorem rangeUsed_append (U : List UInt8) (b : UInt8) (r : Nat) :
    rangeUsed (U ++ [b]) r = (rangeUsed U r || (b.toNat / 16 == r)) := by
  simp [rangeUsed]

theorem ofNat_eq_iff (b : UInt8) (r j : Nat) (hr : r < 16) (hj : j < 16) :
    UInt8.ofNat (16 * r + j) = b ↔ (b.toNat / 16 = r ∧ b.toNat % 16 = j) := by
  constructor
  · intro h
    rw [← h, UInt8.toNat_ofNat_of_lt' (show _ < 256 by omega)]
    omega
  · rintro ⟨h1, h2⟩
    apply UInt8.toNat_inj.1
    rw [UInt8.toNat_ofNat_of_lt' (show _ < 256 by omega)]
    omega

theorem not_used_mem (U : List UInt8) (r j : Nat) (hr : r < 16) (hj : j < 16)
    (h : rangeUsed U r = false) : UInt8.ofNat (16 * r + j) ∉ U := by
  intro hm
  simp only [rangeUsed, List.any_eq_false] at h
  have := h _ hm
  rw [UInt8.toNat_ofNat_of_lt' (show _ < 256 by omega)] at this
  simp at this
  omega

theorem getElem?_range_map {α : Type} (f : Nat → α) (n i : Nat) (h : i < n) :
    ((List.range n).map f)[i]? = some (f i) := by simp [h]

theorem symbolDetails_eq (U : List UInt8) :
    symbolDetails U = (List.range 16).map (detailOf U) := by
  suffices ∀ (V : List UInt8), U.foldl (fun details value =>
      let tableNumber := value.toNat / 16
      let entry := value.toNat % 16
      match details.getD tableNumber none with
      | some given => details.set tableNumber (some (given.set entry true))
      | none => details.set tableNumber (some ((List.replicate 16 false).set entry true)))
      ((List.range 16).map (detailOf V)) = (List.range 16).map (detailOf (V ++ U)) by
    have h := this []
    rw [List.nil_append] at h
    rw [← h, symbolDetails]
    congr 1
  induction U with
  | nil => intro V; simp
  | cons b U ih =>
    intro V
    rw [List.foldl_cons]
    have hb := b.toNat_lt
    have hstep : ∀ g : List Bit, (∀ j < 16, g[j]? = some (decide (UInt8.ofNat (16 * (b.toNat / 16) + j) ∈ V))) →
        g.length = 16 →
        ((List.range 16).map (detailOf V)).set (b.toNat / 16) (some (g.set (b.toNat % 16) true))
          = (List.range 16).map (detailOf (V ++ [b])) := by
      intro g hg hgl
      apply List.ext_getElem?
      intro r
      by_cases hr : r < 16
      · rw [getElem?_range_map _ _ _ hr, List.getElem?_set]
        by_cases hrb : b.toNat / 16 = r
        · rw [if_pos hrb, if_pos (by simp; omega)]
          congr 1
          rw [detailOf, rangeUsed_append, if_pos (by simp [hrb])]
          congr 1
          apply List.ext_getElem?
          intro j
          by_cases hj : j < 16
          · rw [getElem?_range_map _ _ _ hj, List.getElem?_set]
            by_cases hjb : b.toNat % 16 = j
            · rw [if_pos hjb, if_pos (by omega)]
              have := (ofNat_eq_iff b r j hr hj).2 ⟨hrb, hjb⟩
              simp [this]
            · rw [if_neg hjb, hg j hj, hrb]
              have : UInt8.ofNat (16 * r + j) ≠ b := fun h => hjb ((ofNat_eq_iff b r j hr hj).1 h).2
              simp only [List.mem_append, List.mem_singleton, this, or_false]
          · rw [List.getElem?_eq_none (by simp; omega), List.getElem?_eq_none (by simp; omega)]
        · rw [if_neg hrb, getElem?_range_map _ _ _ hr]
          have hu : rangeUsed (V ++ [b]) r = rangeUsed V r := by
            rw [rangeUsed_append]; simp [hrb]
          rw [detailOf, detailOf, hu]
          congr 1
          split
          · congr 1
            apply List.map_congr_left
            intro j hj
            have hj : j < 16 := by simpa using hj
            have : UInt8.ofNat (16 * r + j) ≠ b := fun h => hrb ((ofNat_eq_iff b r j hr hj).1 h).1
            simp only [List.mem_append, List.mem_singleton, this, or_false]
          · rfl
      · rw [List.getElem?_eq_none (by simp; omega), List.getElem?_eq_none (by simp; omega)]
    have hget : ((List.range 16).map (detailOf V)).getD (b.toNat / 16) none = detailOf V (b.toNat / 16) := by
      rw [List.getD_eq_getElem?_getD, getElem?_range_map _ _ _ (by omega)]; rfl
    have hfin : ∀ x, x = (List.range 16).map (detailOf (V ++ [b])) →
        U.foldl (fun details value =>
      let tableNumber := value.toNat / 16
      let entry := value.toNat % 16
      match details.getD tableNumber none with
      | some given => details.set tableNumber (some (given.set entry true))
      | none => details.set tableNumber (some ((List.replicate 16 false).set entry true))) x
        = (List.range 16).map (detailOf (V ++ b :: U)) := by
      intro x hx; subst hx
      rw [ih (V ++ [b])]; simp
    apply hfin
    dsimp only
    rw [hget]
    split
    · rename_i given hgiven
      unfold detailOf at hgiven
      split at hgiven
      · simp only [Option.some.injEq] at hgiven
        subst hgiven
        apply hstep
        · intro j hj; rw [getElem?_range_map _ _ _ hj]
        · simp
      · simp at hgiven
    · rename_i hgiven
      have hu : rangeUsed V (b.toNat / 16) = false := by
        unfold detailOf at hgiven
        split at hgiven
        · simp at hgiven
        · rename_i h; simpa using h
      apply hstep
      · intro j hj
        have := not_used_mem V (b.toNat / 16) j (by omega) hj hu
        rw [List.getElem?_replicate, if_pos hj, decide_eq_false this]
      · rw [List.length_replicate]

theorem flatMap_filter_detail (U : List UInt8) (l : List Nat) :
    (l.map (detailOf U)).flatMap (fun used => used.getD []) =
      (l.filter (rangeUsed U)).flatMap fun r =>
        (List.range 16).map fun j => decide (UInt8.ofNat (16 * r + j) ∈ U) := by
  induction l with
  | nil => rfl
  | cons r l ih =>
    rw [List.map_cons, List.flatMap_cons, ih, List.filter_cons]
    by_cases h : rangeUsed U r = true
    · simp [detailOf, h]
    · simp [detailOf, h]

theorem getSymbolTable_eq (U : List UInt8) : getSymbolTable U = symbolMapBits U := by
  unfold getSymbolTable symbolMapBits
  rw [symbolDetails_eq]
  dsimp only
  rw [flatMap_filter_detail, List.map_map]
  congr 1
  apply List.map_congr_left
  intro r _
  simp only [Function.comp, detailOf]
  split <;> simp_all

theorem getUsedRegions_map (p : Nat → Bool) (n : Nat) :
    getUsedRegions ((List.range n).map p) = (List.range n).filter p := by
  unfold getUsedRegions
  rw [List.range_eq_range', zipIdx_filter_flags, List.map_map]
  show List.map (fun i => i) _ = _
  simp

theorem usedFromRegions_eq (regs : List Nat) (q : Nat → Nat → Bool) :
    getUsedSymbolsFromRegions regs (regs.flatMap fun r => (List.range 16).map (q r)) =
      regs.flatMap fun r => ((List.range 16).filter (q r)).map fun j => UInt8.ofNat (r * 16 + j) := by
  unfold getUsedSymbolsFromRegions
  induction regs with
  | nil => rfl
  | cons r regs ih =>
    simp only [List.flatMap_cons]
    rw [List.zip_append (by simp), List.flatMap_append, ih]
    congr 1
    generalize List.range 16 = l
    induction l with
    | nil => rfl
    | cons j l ih2 =>
      simp only [List.map_cons, List.zip_cons_cons, List.flatMap_cons, ih2, List.filter_cons]
      by_cases h : q r j = true <;> simp [h]

theorem allBytes_blocks : allBytes =
    (List.range 16).flatMap fun r => (List.range 16).map fun j => UInt8.ofNat (r * 16 + j) := by
  decide +kernel

theorem pSymbolTable_map (U : List UInt8) (rest : List Bit) :
    pSymbolTable (symbolMapBits U ++ rest) = Res.ok (usedBytes U, rest) := by
  unfold pSymbolTable symbolMapBits
  rw [List.append_assoc, takeBits_append (by simp)]
  simp only [Res.ok_bind]
  rw [getUsedRegions_map]
  have hlen : ∀ l : List Nat, (l.flatMap fun r =>
      (List.range 16).map fun j => decide (UInt8.ofNat (16 * r + j) ∈ U)).length = 16 * l.length := by
    intro l
    induction l with
    | nil => rfl
    | cons r l ih => rw [List.flatMap_cons, List.length_append, ih]; simp; omega
  rw [takeBits_append (hlen _)]
  simp only [Res.ok_bind, Res.pure_eq, usedFromRegions_eq]
  congr 2
  rw [usedBytes, allBytes_blocks]
  have : ∀ l : List Nat, (∀ r ∈ l, r < 16) → (l.filter (rangeUsed U)).flatMap (fun r =>
      ((List.range 16).filter fun j => decide (UInt8.ofNat (16 * r + j) ∈ U)).map fun j =>
        UInt8.ofNat (r * 16 + j)) =
      (l.flatMap fun r => (List.range 16).map fun j => UInt8.ofNat (r * 16 + j)).filter
        fun b => decide (b ∈ U) := by
    intro l
    induction l with
    | nil => intro _; rfl
    | cons r l ih =>
      intro hl
      have hr : r < 16 := hl r (by simp)
      have ih := ih (fun r hr => hl r (by simp [hr]))
      rw [List.flatMap_cons, List.filter_append, ← ih, List.filter_cons, List.filter_map]
      have hf : (List.range 16).filter (fun j => decide (UInt8.ofNat (16 * r + j) ∈ U)) =
          (List.range 16).filter ((fun b => decide (b ∈ U)) ∘ fun j => UInt8.ofNat (r * 16 + j)) := by
        apply List.filter_congr
        intro j _
        simp [Function.comp, Nat.mul_comm]
      split
      · rw [List.flatMap_cons, hf]
      · rename_i h
        have h : rangeUsed U r = false := by simpa using h
        have hnil : (List.range 16).filter (fun j => decide (UInt8.ofNat (16 * r + j) ∈ U)) = [] := by
          rw [List.filter_eq_nil_iff]
          intro j hj
          rw [decide_eq_true_eq]
          exact not_used_mem U r j hr (by simpa using hj) h
        rw [← hf, hnil]; rfl
  exact this _ (by simp)

theorem usedBytes_of_sorted (U : List UInt8) (h : U.Pairwise (· < ·)) : usedBytes U = U := by
  have hn : U.Nodup := h.imp (fun h => by intro e; subst e; exact absurd h (by simp))
  have hp : (usedBytes U).Perm U := (List.perm_ext_iff_of_nodup (usedBytes_nodup U) hn).2
    (fun b => mem_usedBytes)
  exact hp.eq_of_pairwise (fun a b _ _ h1 h2 => by
    have := UInt8.lt_iff_toNat_lt.1 h1
    have := UInt8.lt_iff_toNat_lt.1 h2
    omega) (usedBytes_pairwise U) h

end Ribzip2
