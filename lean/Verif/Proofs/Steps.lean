import Verif.Model.Steps
import Verif.Proofs.Depth
/- Counting the steps of the block-sorting code. -/
namespace Ribzip2
open Spec

attribute [-instance] List.LE'

theorem bind_is_ok {α β : Type} {x : Res α} {f : α → Res β} {b : β} :
    (x >>= f) = Res.ok b ↔ ∃ a, x = Res.ok a ∧ f a = Res.ok b := by
  cases x <;> simp

/-! ### Duval -/

theorem duvalInnerC_eq (s : List UInt8) (i fuel j k c : Nat) :
    duvalInnerC s i fuel j k c = (duvalInner s i fuel j k >>= fun r => Res.ok (r, c + (r.1 - j))) ∧
      (∀ r, duvalInner s i fuel j k = Res.ok r → i ≤ k → k < j → j ≤ s.length →
        i ≤ r.2 ∧ r.2 < r.1 ∧ j ≤ r.1 ∧ r.1 ≤ s.length) ∧
      (∀ r, duvalInner s i fuel j k = Res.ok r → j ≤ r.1) := by
  induction fuel generalizing j k c with
  | zero => simp [duvalInnerC, duvalInner]
  | succ fuel ih =>
    rw [duvalInnerC, duvalInner]
    split
    · rename_i hj
      cases ha : idx s k with
      | ok a =>
        cases hb : idx s j with
        | ok b =>
          simp only [Res.ok_bind]
          split
          · split
            · obtain ⟨h1, h2, h3⟩ := ih (j + 1) i (c + 1)
              refine ⟨?_, fun r hr a b c => ?_, fun r hr => ?_⟩
              · rw [h1]
                cases hr : duvalInner s i fuel (j + 1) i with
                | ok r => have := h3 r hr; simp only [Res.ok_bind]; congr 2; omega
                | _ => rfl
              · have := h2 r hr (by omega) (by omega) (by omega); omega
              · have := h3 r hr; omega
            · obtain ⟨h1, h2, h3⟩ := ih (j + 1) (k + 1) (c + 1)
              refine ⟨?_, fun r hr a b c => ?_, fun r hr => ?_⟩
              · rw [h1]
                cases hr : duvalInner s i fuel (j + 1) (k + 1) with
                | ok r => have := h3 r hr; simp only [Res.ok_bind]; congr 2; omega
                | _ => rfl
              · have := h2 r hr (by omega) (by omega) (by omega); omega
              · have := h3 r hr; omega
          · refine ⟨by simp, ?_, ?_⟩
            · rintro r hr a b c; simp at hr; subst hr; simp; omega
            · rintro r hr; simp at hr; subst hr; simp
        | _ => simp
      | _ => simp
    · refine ⟨by simp, ?_, ?_⟩
      · rintro r hr a b c; simp at hr; subst hr; simp; omega
      · rintro r hr; simp at hr; subst hr; simp

theorem duvalAdvanceC_eq (j k fuel i f c : Nat) (hkj : k < j) (hij : i ≤ j) :
    (∀ r, duvalAdvance j k fuel i f = Res.ok r → ∃ c', duvalAdvanceC j k fuel i f c = Res.ok (r, c') ∧
      c' ≤ c + (r.1 - i) ∧ i ≤ r.1 ∧ k < r.1 ∧ r.1 ≤ j ∧ (i ≤ k → j - k ≤ r.1 - i)) := by
  induction fuel generalizing i f c with
  | zero => simp [duvalAdvance]
  | succ fuel ih =>
    intro r
    rw [duvalAdvanceC, duvalAdvance]
    split
    · rename_i hik
      rw [subU, if_pos (by omega)]
      simp only [Res.ok_bind]
      intro hr
      obtain ⟨c', h1, h2, h3, h4, h5, h6⟩ := ih (i + (j - k)) i (c + 1) (by omega) r hr
      exact ⟨c', h1, by omega, by omega, h4, h5, fun _ => by omega⟩
    · intro hr
      simp only [Res.ok.injEq] at hr
      subst hr
      exact ⟨c, rfl, by simp, by simp, by simpa using ‹¬ i ≤ k›, hij, fun h => absurd h ‹¬ i ≤ k›⟩

theorem duvalOuterC_eq (s : List UInt8) (fuel i f c r : Nat) (hi : i ≤ s.length)
    (h : duvalOuter s fuel i f = Res.ok r) :
    ∃ c', duvalOuterC s fuel i f c = Res.ok (r, c') ∧ c' ≤ c + 3 * (s.length - i) := by
  induction fuel generalizing i f c with
  | zero => simp [duvalOuter] at h
  | succ fuel ih =>
    rw [duvalOuter] at h
    rw [duvalOuterC]
    split at h
    · rename_i hlt
      rw [if_pos hlt]
      obtain ⟨h1, h2, h3⟩ := duvalInnerC_eq s i (s.length + 1) (i + 1) i (c + 1)
      rw [h1]
      cases hr : duvalInner s i (s.length + 1) (i + 1) i with
      | ok p =>
        obtain ⟨j, k⟩ := p
        have := h2 _ hr (by omega) (by omega) (by omega)
        rw [hr] at h
        simp only [Res.ok_bind] at h ⊢ this
        cases ha : duvalAdvance j k (s.length + 1) i f with
        | ok q =>
          obtain ⟨i', f'⟩ := q
          obtain ⟨c', a1, a2, a3, a4, a5, a6⟩ := duvalAdvanceC_eq j k (s.length + 1) i f (c + 1 + (j - (i + 1)))
            (by omega) (by omega) _ ha
          simp only at a2 a3 a4 a5 a6
          rw [ha] at h
          simp only [Res.ok_bind] at h
          rw [a1]
          simp only [Res.ok_bind]
          obtain ⟨c'', b1, b2⟩ := ih i' f' c' (by omega) h
          have := a6 (by omega)
          exact ⟨c'', b1, by omega⟩
        | _ => rw [ha] at h; simp at h
      | _ => rw [hr] at h; simp at h
    · rename_i hlt
      rw [if_neg hlt]
      simp only [Res.ok.injEq] at h
      subst h
      exact ⟨c, rfl, by omega⟩

/-! ### suffix sort -/

theorem suffixTypesAuxC_eq (T : List Nat) (c : Nat) : suffixTypesAuxC T c = (suffixTypesAux T, c + (T.length - 1)) := by
  fun_induction suffixTypesAux T with
  | case1 => rfl
  | case2 => rfl
  | case3 a b rest tail ih =>
    rw [suffixTypesAuxC, ih]
    simp only [List.length_cons]
    congr 1

theorem getBucketSizesC_eq (T sizes : List Nat) (c : Nat) :
    getBucketSizesC T sizes c = (getBucketSizes T sizes >>= fun r => Res.ok (r, c + T.length)) := by
  induction T generalizing sizes c with
  | nil => rfl
  | cons x T ih =>
    rw [getBucketSizesC, getBucketSizes]
    simp only [bind_assoc, ih, List.length_cons, Nat.add_assoc, Nat.add_comm 1]

theorem bucketHeadsC_eq (o : Nat) (l : List Nat) (c : Nat) : bucketHeadsC o l c = (bucketHeadsFrom o l, c + l.length) := by
  induction l generalizing o c with
  | nil => rfl
  | cons s l ih =>
    rw [bucketHeadsC, bucketHeadsFrom, ih]
    simp only [List.length_cons, Nat.add_assoc, Nat.add_comm 1]

theorem bucketTailsC_eq (o : Nat) (l : List Nat) (c : Nat) : bucketTailsC o l c = (bucketTailsFrom o l, c + l.length) := by
  induction l generalizing o c with
  | nil => rfl
  | cons s l ih =>
    rw [bucketTailsC, bucketTailsFrom, ih]
    simp only [List.length_cons, Nat.add_assoc, Nat.add_comm 1]

theorem bind_congr' {α β : Type} {x : Res α} {f g : α → Res β} (h : ∀ a, f a = g a) : (x >>= f) = (x >>= g) := by
  cases x <;> simp [h]

theorem identifyLoopC_eq (text : List Nat) (types : List Bool) (i : Nat) (sa : List (Option Nat)) (tails : List Nat) (c : Nat) :
    identifyLoopC text types i sa tails c = (identifyLoop text types i sa tails >>= fun r => Res.ok (r, c + i)) := by
  induction i generalizing sa tails c with
  | zero => rfl
  | succ i ih =>
    rw [identifyLoopC, identifyLoop, bind_assoc]
    refine bind_congr' fun lms => ?_
    split
    · rw [bind_assoc]
      refine bind_congr' fun p => ?_
      simp only [ih, Nat.add_assoc, Nat.add_comm 1]
    · simp only [ih, Nat.add_assoc, Nat.add_comm 1]

theorem identifyLmsC_eq (text : List Nat) (types : List Bool) (sizes : List Nat) (c : Nat) :
    identifyLmsC text types sizes c
      = (identifyLms text types sizes >>= fun r => Res.ok (r, c + sizes.length + text.length)) := by
  simp only [identifyLmsC, identifyLms, bind_assoc, bucketTailsC_eq, identifyLoopC_eq]

theorem inductionLLoopC_eq (text : List Nat) (types : List Bool) (k i : Nat) (sa : List (Option Nat)) (heads : List Nat) (c : Nat) :
    inductionLLoopC text types k i sa heads c = (inductionLLoop text types k i sa heads >>= fun r => Res.ok (r, c + k)) := by
  induction k generalizing i sa heads c with
  | zero => rfl
  | succ k ih =>
    rw [inductionLLoopC, inductionLLoop, bind_assoc]
    refine bind_congr' fun e => ?_
    cases hp : predecessor e with
    | some j =>
      simp only []
      rw [bind_assoc]
      refine bind_congr' fun t => ?_
      split
      · simp only [ih, Nat.add_assoc, Nat.add_comm 1]
      · rw [bind_assoc]
        refine bind_congr' fun p => ?_
        simp only [ih, Nat.add_assoc, Nat.add_comm 1]
    | none => simp only [ih, Nat.add_assoc, Nat.add_comm 1]

theorem inductionSortLC_eq (sa : List (Option Nat)) (text : List Nat) (types : List Bool) (sizes : List Nat) (c : Nat) :
    inductionSortLC sa text types sizes c
      = (inductionSortL sa text types sizes >>= fun r => Res.ok (r, c + sizes.length + sa.length)) := by
  simp only [inductionSortLC, inductionSortL, bucketHeadsC_eq, inductionLLoopC_eq]

theorem inductionSLoopC_eq (text : List Nat) (types : List Bool) (i : Nat) (sa : List (Option Nat)) (tails : List Nat) (c : Nat) :
    inductionSLoopC text types i sa tails c = (inductionSLoop text types i sa tails >>= fun r => Res.ok (r, c + i)) := by
  induction i generalizing sa tails c with
  | zero => rfl
  | succ k ih =>
    rw [inductionSLoopC, inductionSLoop, bind_assoc]
    refine bind_congr' fun e => ?_
    cases hp : predecessor e with
    | some j =>
      simp only []
      rw [bind_assoc]
      refine bind_congr' fun t => ?_
      split
      · rw [bind_assoc]
        refine bind_congr' fun p => ?_
        simp only [ih, Nat.add_assoc, Nat.add_comm 1]
      · simp only [ih, Nat.add_assoc, Nat.add_comm 1]
    | none => simp only [ih, Nat.add_assoc, Nat.add_comm 1]

theorem inductionSortSC_eq (sa : List (Option Nat)) (text : List Nat) (types : List Bool) (sizes : List Nat) (c : Nat) :
    inductionSortSC sa text types sizes c
      = (inductionSortS sa text types sizes >>= fun r => Res.ok (r, c + sizes.length + sa.length)) := by
  simp only [inductionSortSC, inductionSortS, bucketTailsC_eq, inductionSLoopC_eq]

theorem directLoopC_eq (reduced : List Nat) (k i : Nat) (sa : List (Option Nat)) (c : Nat) :
    directLoopC reduced k i sa c = (directLoop reduced k i sa >>= fun r => Res.ok (r, c + k)) := by
  induction k generalizing i sa c with
  | zero => rfl
  | succ k ih => simp only [directLoopC, directLoop, bind_assoc, ih, Nat.add_assoc, Nat.add_comm 1]

theorem directSuffixArrayC_eq (reduced : List Nat) (c : Nat) :
    directSuffixArrayC reduced c = (directSuffixArray reduced >>= fun r => Res.ok (r, c + (reduced.length - 1))) := by
  simp only [directSuffixArrayC, directSuffixArray, bind_assoc, directLoopC_eq]

theorem placeLoopC_eq (text : List Nat) (summary : List (Option Nat)) (offsets : List Nat) (i : Nat)
    (sa : List (Option Nat)) (tails : List Nat) (c : Nat) :
    placeLoopC text summary offsets i sa tails c
      = (placeLoop text summary offsets i sa tails >>= fun r => Res.ok (r, c + i)) := by
  induction i generalizing sa tails c with
  | zero => rfl
  | succ i ih =>
    rw [placeLoopC, placeLoop]
    simp only [bind_assoc]
    refine bind_congr' fun e => bind_congr' fun r => bind_congr' fun x => bind_congr' fun p => ?_
    simp only [ih, Nat.add_assoc, Nat.add_comm 1]

theorem placeLmsC_eq (text : List Nat) (sizes : List Nat) (summary : List (Option Nat)) (offsets : List Nat) (c : Nat) :
    placeLmsC text sizes summary offsets c
      = (placeLms text sizes summary offsets >>= fun r => Res.ok (r, c + sizes.length + (summary.length - 2))) := by
  simp only [placeLmsC, placeLms, bind_assoc, bucketTailsC_eq, placeLoopC_eq]

theorem unwrapAllC_eq (l : List (Option Nat)) (c : Nat) :
    unwrapAllC l c = (unwrapAll l >>= fun r => Res.ok (r, c + l.length)) := by
  induction l generalizing c with
  | nil => rfl
  | cons e l ih => simp only [unwrapAllC, unwrapAll, bind_assoc, ih, Res.pure_eq, Res.ok_bind, List.length_cons,
      Nat.add_assoc, Nat.add_comm 1]

theorem bwtColumnC_eq (rot : List UInt8) (len : Nat) (l : List Nat) (c : Nat) :
    bwtColumnC rot len l c = (bwtColumn rot len l >>= fun r => Res.ok (r, c + l.length)) := by
  induction l generalizing c with
  | nil => rfl
  | cons e l ih => simp only [bwtColumnC, bwtColumn, bind_assoc, ih, Res.pure_eq, Res.ok_bind, List.length_cons,
      Nat.add_assoc, Nat.add_comm 1]

namespace Sais

/-! ### comparing LMS blocks -/

/-- The next LMS position behind `p`, or the end of the text. -/
def nextLms (T : List Nat) (p : Nat) : Nat :=
  ((List.range T.length).find? (fun q => decide (p < q) && lms T q)).getD T.length

theorem nextLms_spec (T : List Nat) (p : Nat) (hp : p < T.length) :
    p < nextLms T p ∧ nextLms T p ≤ T.length ∧ (∀ q, p < q → q < nextLms T p → lms T q = false) ∧
      (nextLms T p < T.length → lms T (nextLms T p) = true) := by
  unfold nextLms
  cases h : (List.range T.length).find? (fun q => decide (p < q) && lms T q) with
  | none =>
    rw [List.find?_eq_none] at h
    refine ⟨hp, Nat.le_refl _, fun q h1 h2 => ?_, fun h => absurd h (Nat.lt_irrefl _)⟩
    have := h q (List.mem_range.2 h2)
    simpa [h1] using this
  | some q =>
    rw [List.find?_range_eq_some] at h
    simp only [List.mem_range, Bool.and_eq_true, decide_eq_true_eq, Bool.not_eq_true'] at h
    obtain ⟨h1, h2, h3⟩ := h
    refine ⟨h1.1, Nat.le_of_lt h2, fun q' a b => ?_, fun _ => h1.2⟩
    have := h3 q' b
    simpa [a] using this

/-- Comparing a block with an earlier one visits positions up to its end at most. -/
theorem lmsEqualLoopC_le (T : List Nat) (p q fuel i c : Nat) (b : Bool) (hq : q < T.length) (hi : 1 ≤ i)
    (hn : ∀ r, q < r → r < q + i → lms T r = false)
    (h : lmsEqualLoop T (getSuffixTypes T) p q fuel i = Res.ok b) :
    ∃ c', lmsEqualLoopC T (getSuffixTypes T) p q fuel i c = Res.ok (b, c') ∧ c' ≤ c + (nextLms T q + 1 - (q + i)) := by
  obtain ⟨n1, n2, n3, n4⟩ := nextLms_spec T q hq
  induction fuel generalizing i c with
  | zero => simp [lmsEqualLoop] at h
  | succ fuel ih =>
    rw [lmsEqualLoop] at h
    rw [lmsEqualLoopC]
    split at h
    · rename_i hlt
      rw [if_pos hlt]
      rw [isLms_eq T (p + i) (by omega), isLms_eq T (q + i) (by omega)] at h ⊢
      simp only [Res.ok_bind] at h ⊢
      have hle : q + i ≤ nextLms T q := by
        by_contra hc
        have h1 := n4 (by omega)
        rw [hn _ n1 (by omega)] at h1
        simp at h1
      cases hpl : lms T (p + i) <;> cases hql : lms T (q + i) <;> simp only [hpl, hql] at h ⊢
      · simp only [Bool.and_self, Bool.false_eq_true, if_false, bne_self_eq_false] at h ⊢
        obtain ⟨x, hx⟩ : ∃ x, idx T (p + i) = Res.ok x := ⟨_, idx_chr T _ (by omega)⟩
        obtain ⟨y, hy⟩ : ∃ y, idx T (q + i) = Res.ok y := ⟨_, idx_chr T _ (by omega)⟩
        rw [hx, hy] at h ⊢
        simp only [Res.ok_bind] at h ⊢
        split at h
        · rename_i hne
          rw [if_pos hne]
          simp only [Res.pure_eq, Res.ok.injEq] at h
          subst h
          exact ⟨_, rfl, by omega⟩
        · rename_i hne
          rw [if_neg hne]
          obtain ⟨c', e1, e2⟩ := ih (i + 1) (c + 1) (by omega) (fun r h1 h2 => by
            by_cases hr : r = q + i
            · rw [hr, hql]
            · exact hn r h1 (by omega)) h
          exact ⟨c', e1, by omega⟩
      all_goals
        simp at h
        subst h
        exact ⟨c + 1, by simp, by omega⟩
    · rename_i hlt
      rw [if_neg hlt]
      simp only [Res.ok.injEq] at h
      subst h
      exact ⟨c, rfl, by omega⟩

theorem areLmsBlocksEqualC_le (T : List Nat) (p q c : Nat) (b : Bool) (hq : q < T.length)
    (h : areLmsBlocksEqual T p q (getSuffixTypes T) = Res.ok b) :
    ∃ c', areLmsBlocksEqualC T p q (getSuffixTypes T) c = Res.ok (b, c') ∧ c' ≤ c + (nextLms T q - q) := by
  have hx := nextLms_spec T q hq
  unfold areLmsBlocksEqual at h
  unfold areLmsBlocksEqualC
  split at h
  · rename_i hc
    rw [if_pos hc]
    simp only [Res.ok.injEq] at h
    subst h
    exact ⟨c, rfl, by omega⟩
  · rename_i hc
    rw [if_neg hc]
    cases hp : idx T p with
    | ok x =>
      obtain ⟨y, hy⟩ : ∃ y, idx T q = Res.ok y := ⟨_, idx_chr T _ hq⟩
      rw [hp, hy] at h
      rw [hy]
      simp only [Res.ok_bind] at h ⊢
      split at h
      · rename_i hne
        rw [if_pos hne]
        simp only [Res.pure_eq, Res.ok.injEq] at h
        subst h
        exact ⟨c, rfl, by omega⟩
      · rename_i hne
        rw [if_neg hne]
        obtain ⟨c', e1, e2⟩ := lmsEqualLoopC_le T p q (T.length + 1) 1 c b hq (Nat.le_refl _) (by omega) h
        exact ⟨c', e1, by omega⟩
    | _ => rw [hp] at h; simp at h

/-- The blocks of different LMS positions do not overlap. -/
theorem blocks_disjoint (T : List Nat) (l : List Nat) (hl : l.Nodup) (hlt : ∀ p ∈ l, p < T.length ∧ lms T p = true) :
    (l.map fun p => nextLms T p - p).sum ≤ T.length := by
  have hnd : (l.flatMap fun p => List.range' (p + 1) (nextLms T p - p)).Nodup := by
    rw [List.nodup_flatMap]
    refine ⟨fun p _ => List.nodup_range', ?_⟩
    refine List.Pairwise.imp_of_mem ?_ hl
    intro a b ha hb hab
    rw [Function.onFun, List.disjoint_left]
    intro x hx hy
    rw [List.mem_range'_1] at hx hy
    have h1 := nextLms_spec T a (hlt a ha).1
    have h2 := nextLms_spec T b (hlt b hb).1
    have hA := (hlt a ha).2
    have hB := (hlt b hb).2
    rcases Nat.lt_or_gt_of_ne hab with h | h
    · have : ¬ b < nextLms T a := fun h' => by rw [h1.2.2.1 b h h'] at hB; simp at hB
      omega
    · have : ¬ a < nextLms T b := fun h' => by rw [h2.2.2.1 a h h'] at hA; simp at hA
      omega
  have hsub : (l.flatMap fun p => List.range' (p + 1) (nextLms T p - p)) ⊆ List.range' 1 T.length := by
    intro x hx
    rw [List.mem_flatMap] at hx
    obtain ⟨p, hp, hx⟩ := hx
    rw [List.mem_range'_1] at hx ⊢
    have h1 := nextLms_spec T p (hlt p hp).1
    omega
  have := (List.subperm_of_subset hnd hsub).length_le
  rw [List.length_flatMap, List.length_range'] at this
  simpa using this

theorem nameLoopC_le (T : List Nat) (l : List Nat) (s s' : NameState) (c : Nat) (hlt : ∀ p ∈ l, p < T.length)
    (h : nameLoop T (getSuffixTypes T) (l.map some) s = Res.ok s') :
    ∃ c', nameLoopC T (getSuffixTypes T) (l.map some) s c = Res.ok (s', c') ∧
      c' ≤ c + l.length + ((l.filter (lms T)).map fun p => nextLms T p - p).sum := by
  induction l generalizing s c with
  | nil =>
    simp only [List.map_nil, nameLoop, Res.ok.injEq] at h
    subst h
    exact ⟨c, rfl, by simp⟩
  | cons cur l ih =>
    have hc := hlt cur (by simp)
    rw [List.map_cons, nameLoop, Res.ofOption_some, Res.ok_bind, isLms_eq T cur (by omega), Res.ok_bind] at h
    rw [List.map_cons, nameLoopC, Res.ofOption_some, Res.ok_bind, isLms_eq T cur (by omega), Res.ok_bind,
      List.filter_cons]
    cases hl : lms T cur with
    | true =>
      rw [hl] at h
      simp only [if_true] at h ⊢
      cases he : areLmsBlocksEqual T s.previous cur (getSuffixTypes T) with
      | ok b =>
        rw [he] at h
        obtain ⟨c1, e1, e2⟩ := areLmsBlocksEqualC_le T s.previous cur (c + 1) b hc he
        rw [e1]
        simp only [Res.ok_bind] at h ⊢
        cases hn : setIdx s.names cur (some (if b = true then s.currentName else s.currentName + 1)) with
        | ok names =>
          rw [hn] at h
          simp only [Res.ok_bind] at h ⊢
          obtain ⟨c2, f1, f2⟩ := ih _ c1 (fun p hp => hlt p (by simp [hp])) h
          exact ⟨c2, f1, by simp only [List.map_cons, List.sum_cons, List.length_cons]; omega⟩
        | _ => rw [hn] at h; simp at h
      | _ => rw [he] at h; simp at h
    | false =>
      rw [hl] at h
      simp only [Bool.false_eq_true, if_false] at h ⊢
      obtain ⟨c2, f1, f2⟩ := ih _ (c + 1) (fun p hp => hlt p (by simp [hp])) h
      exact ⟨c2, f1, by simp only [List.length_cons]; omega⟩

theorem nameLoop_names (T : List Nat) (types : List Bool) (l : List (Option Nat)) (s s' : NameState)
    (h : nameLoop T types l s = Res.ok s') : s'.names.length = s.names.length := by
  induction l generalizing s with
  | nil => simp only [nameLoop, Res.ok.injEq] at h; rw [h]
  | cons e l ih =>
    rw [nameLoop] at h
    cases he : Res.ofOption e with
    | ok cur =>
      rw [he, Res.ok_bind] at h
      cases hl : isLms types cur with
      | ok b =>
        rw [hl, Res.ok_bind] at h
        cases b with
        | true =>
          simp only [if_true] at h
          cases ha : areLmsBlocksEqual T s.previous cur types with
          | ok x =>
            rw [ha, Res.ok_bind] at h
            cases hn : setIdx s.names cur (some (if x = true then s.currentName else s.currentName + 1)) with
            | ok names =>
              rw [hn, Res.ok_bind] at h
              rw [ih _ h]
              unfold setIdx at hn
              split at hn
              · simp only [Res.ok.injEq] at hn; rw [← hn]; simp
              · simp at hn
            | _ => rw [hn] at h; simp at h
          | _ => rw [ha] at h; simp at h
        | false => simp only [Bool.false_eq_true, if_false] at h; exact ih _ h
      | _ => rw [hl] at h; simp at h
    | _ => rw [he] at h; simp at h

theorem head_end (T : List Nat) (l : List Nat) (hperm : l.Perm (List.range (T.length + 1)))
    (hsort : l.Pairwise fun p p' => keyS T p ≤ keyS T p') : ∃ l', l = T.length :: l' := by
  have hmem : ∀ p, p ∈ l ↔ p < T.length + 1 := by
    intro p; rw [hperm.mem_iff, List.mem_range]
  obtain ⟨h0, l', rfl⟩ : ∃ h0 l', l = h0 :: l' := by
    cases l with
    | nil => have := (hmem T.length).2 (by omega); simp at this
    | cons a l => exact ⟨a, l, rfl⟩
  refine ⟨l', ?_⟩
  congr 1
  by_contra hne
  have h1 := (hmem h0).1 (by simp)
  have h2 : T.length ∈ l' := by
    have := (hmem T.length).2 (by omega)
    rcases List.mem_cons.1 this with h | h
    · exact absurd h.symm hne
    · exact h
  have h3 := (List.pairwise_cons.1 hsort).1 _ h2
  rw [keyS_end (i := T.length) (Nat.le_refl _)] at h3
  obtain ⟨r, e⟩ := keyS_cons (T := T) (i := h0) (by omega)
  rw [e] at h3
  exact h3 (List.nil_lt_cons _ _)

theorem reduceProblemC_le (T : List Nat) (l : List Nat) (hperm : l.Perm (List.range (T.length + 1)))
    (hsort : l.Pairwise fun p p' => keyS T p ≤ keyS T p') (c : Nat) (rp : ReducedProblem)
    (h : reduceProblem (l.map some) T (getSuffixTypes T) = Res.ok rp) :
    ∃ c', reduceProblemC (l.map some) T (getSuffixTypes T) c = Res.ok (rp, c') ∧ c' ≤ c + 3 * T.length + 1 := by
  obtain ⟨l', rfl⟩ := head_end T l hperm hsort
  have hnd : (T.length :: l').Nodup := hperm.nodup_iff.2 List.nodup_range
  have hlen : l'.length = T.length := by
    have := hperm.length_eq
    simpa using this
  rw [List.nodup_cons] at hnd
  have hlt : ∀ p ∈ l', p < T.length := by
    intro p hp
    have h1 : p ∈ List.range (T.length + 1) := hperm.mem_iff.1 (by simp [hp])
    rw [List.mem_range] at h1
    have : p ≠ T.length := fun e => hnd.1 (e ▸ hp)
    omega
  have hset : setIdx (List.replicate (T.length + 1) (none : Option Nat)) T.length (some 0)
      = Res.ok ((List.replicate (T.length + 1) none).set T.length (some 0)) := by
    rw [setIdx, if_pos (by simp)]
  rw [reduceProblem, List.map_cons, show idx (some T.length :: l'.map some) 0 = Res.ok (some T.length) from rfl,
    Res.ok_bind, Res.ofOption_some, Res.ok_bind, hset, Res.ok_bind, List.drop_succ_cons, List.drop_zero] at h
  rw [reduceProblemC, List.map_cons, show idx (some T.length :: l'.map some) 0 = Res.ok (some T.length) from rfl,
    Res.ok_bind, Res.ofOption_some, Res.ok_bind, hset, Res.ok_bind, List.drop_succ_cons, List.drop_zero]
  cases hn : nameLoop T (getSuffixTypes T) (l'.map some)
      ⟨(List.replicate (T.length + 1) none).set T.length (some 0), 0, T.length, 1⟩ with
  | ok s =>
    obtain ⟨c1, e1, e2⟩ := nameLoopC_le T l' _ s c hlt hn
    have hnames := nameLoop_names _ _ _ _ _ hn
    simp only [List.length_set, List.length_replicate] at hnames
    have hdis := blocks_disjoint T (l'.filter (lms T)) (hnd.2.filter _) (by
      intro p hp
      rw [List.mem_filter] at hp
      exact ⟨hlt p hp.1, hp.2⟩)
    rw [hn, Res.ok_bind] at h
    rw [e1, Res.ok_bind]
    dsimp only at h ⊢
    cases hs : subU s.count (s.names.zipIdx.filterMap (fun p => p.1.map (fun name => (name, p.2)))).length with
    | ok pad =>
      rw [hs, Res.ok_bind] at h
      rw [Res.ok_bind]
      simp only [Res.pure_eq, Res.ok.injEq] at h
      subst h
      exact ⟨_, rfl, by omega⟩
    | _ => rw [hs] at h; simp at h
  | _ => rw [hn] at h; simp at h

theorem placeHead_length {text : List Nat} {j : Nat} {sa : List (Option Nat)} {heads : List Nat}
    {p : List (Option Nat) × List Nat} (h : placeHead text j sa heads = Res.ok p) : p.1.length = sa.length := by
  unfold placeHead at h
  simp only [bind_is_ok] at h
  obtain ⟨a, -, b, -, sa', e, d, -, h⟩ := h
  simp only [Res.pure_eq, Res.ok.injEq] at h
  subst h
  unfold setIdx at e
  split at e
  · simp only [Res.ok.injEq] at e; rw [← e]; simp
  · simp at e

theorem placeTail_length {text : List Nat} {j : Nat} {sa : List (Option Nat)} {tails : List Nat}
    {p : List (Option Nat) × List Nat} (h : placeTail text j sa tails = Res.ok p) : p.1.length = sa.length := by
  unfold placeTail at h
  simp only [bind_is_ok] at h
  obtain ⟨a, -, b, -, sa', e, d, -, d', -, h⟩ := h
  simp only [Res.pure_eq, Res.ok.injEq] at h
  subst h
  unfold setIdx at e
  split at e
  · simp only [Res.ok.injEq] at e; rw [← e]; simp
  · simp at e

theorem inductionLLoop_length (text : List Nat) (types : List Bool) (k i : Nat) (sa sa' : List (Option Nat))
    (heads : List Nat) (h : inductionLLoop text types k i sa heads = Res.ok sa') : sa'.length = sa.length := by
  induction k generalizing i sa heads with
  | zero => simp only [inductionLLoop, Res.ok.injEq] at h; rw [h]
  | succ k ih =>
    rw [inductionLLoop, bind_is_ok] at h
    obtain ⟨e, -, h⟩ := h
    cases hp : predecessor e with
    | none => rw [hp] at h; exact ih _ _ _ h
    | some j =>
      rw [hp] at h
      simp only [bind_is_ok] at h
      obtain ⟨t, -, h⟩ := h
      cases t with
      | true => exact ih _ _ _ h
      | false =>
        simp only [Bool.false_eq_true, if_false, bind_is_ok] at h
        obtain ⟨p, h1, h2⟩ := h
        rw [ih _ _ _ h2, placeHead_length h1]

theorem inductionSLoop_length (text : List Nat) (types : List Bool) (k : Nat) (sa sa' : List (Option Nat))
    (tails : List Nat) (h : inductionSLoop text types k sa tails = Res.ok sa') : sa'.length = sa.length := by
  induction k generalizing sa tails with
  | zero => simp only [inductionSLoop, Res.ok.injEq] at h; rw [h]
  | succ k ih =>
    rw [inductionSLoop, bind_is_ok] at h
    obtain ⟨e, -, h⟩ := h
    cases hp : predecessor e with
    | none => rw [hp] at h; exact ih _ _ h
    | some j =>
      rw [hp] at h
      simp only [bind_is_ok] at h
      obtain ⟨t, -, h⟩ := h
      cases t with
      | false => exact ih _ _ h
      | true =>
        simp only [if_true, bind_is_ok] at h
        obtain ⟨p, h1, h2⟩ := h
        rw [ih _ _ h2, placeTail_length h1]

theorem sizes_length {T : List Nat} {K : Nat} {sizes : List Nat} (hB : Buckets T K sizes) : sizes.length = K := by
  rw [← hB.heads_len]
  clear hB
  generalize 1 = o
  induction sizes generalizing o with
  | nil => rfl
  | cons s l ih => rw [bucketHeadsFrom, List.length_cons, List.length_cons, ← ih]

/-- One level of the recursion. -/
theorem buildC_step (fuel : Nat) (T : List Nat) (K c B : Nat) (hK : ∀ x ∈ T, x < K)
    (ih : ∀ (R : List Nat) (K' c : Nat), (∀ x ∈ R, x < K') → 2 ≤ R.length → R.length = (offs T).length → K' ≤ R.length →
      ∃ sa c', buildSuffixArrayRecC fuel R K' c = Res.ok (sa, c') ∧ buildSuffixArrayRec fuel R K' = Res.ok sa ∧
        IsSA R sa ∧ c' ≤ c + B) :
    ∃ sa c', buildSuffixArrayRecC (fuel + 1) T K c = Res.ok (sa, c') ∧ buildSuffixArrayRec (fuel + 1) T K = Res.ok sa ∧
      IsSA T sa ∧ c' ≤ c + 10 * T.length + 6 * K + 6 + 2 * (offs T).length + B := by
  obtain ⟨sizes, hsz, hB⟩ := buckets_exist T K hK
  have hsl := sizes_length hB
  obtain ⟨l, r1, r2, r3⟩ := round1 hB
  obtain ⟨nm, K', q1, hr⟩ := reduceProblem_spec T l r2 r3
  obtain ⟨sa1, i1, r1'⟩ := bind_is_ok.1 r1
  obtain ⟨sa2, i2, i3⟩ := bind_is_ok.1 r1'
  have hl3 : (l.map some).length = T.length + 1 := by rw [List.length_map, r2.length_eq, List.length_range]
  have hl2 : sa2.length = T.length + 1 := by rw [← inductionSLoop_length _ _ _ _ _ _ i3, hl3]
  have hl1 : sa1.length = T.length + 1 := by rw [← inductionLLoop_length _ _ _ _ _ _ _ i2, hl2]
  have hty : suffixTypesAux T ++ [false, true] = getSuffixTypes T := rfl
  have hm0 := offs_ne T
  have hval : ∀ x ∈ (offs T).map nm, x < K' := by
    intro x hx
    rw [List.mem_map] at hx
    obtain ⟨p, hp, rfl⟩ := hx
    rw [offs, List.mem_append, List.mem_filter, List.mem_range, List.mem_singleton] at hp
    rcases hp with hp | rfl
    · exact (hr.pos p hp.1 hp.2).2
    · have := hr.last; have := hr.K_pos; omega
  -- the summary
  have hsum : ∀ c, ∃ summary c', (if K' = ((offs T).map nm).length then directSuffixArrayC ((offs T).map nm) c
      else buildSuffixArrayRecC fuel ((offs T).map nm) K' c) = Res.ok (summary, c') ∧
      (if K' = ((offs T).map nm).length then directSuffixArray ((offs T).map nm)
      else buildSuffixArrayRec fuel ((offs T).map nm) K') = Res.ok summary ∧
      IsSA ((offs T).map nm) summary ∧ c' ≤ c + (offs T).length - 1 + B := by
    intro c
    by_cases hd : K' = ((offs T).map nm).length
    · simp only [if_pos hd]
      obtain ⟨sm, s1, s2⟩ := direct_spec ((offs T).map nm) (by intro x hx; rw [← hd]; exact hval x hx) (by
        rw [List.length_map] at hd
        refine List.Nodup.map_on ?_ ((offs_sorted T).imp (fun h => Nat.ne_of_lt h))
        have hcase : ∀ x ∈ offs T, (x < T.length ∧ lms T x = true) ∨ x = T.length := by
          intro x hx
          rw [offs, List.mem_append, List.mem_filter, List.mem_range, List.mem_singleton] at hx
          exact hx
        intro x hx y hy e
        rcases hcase x hx with hx | hx <;> rcases hcase y hy with hy | hy
        · exact hr.distinct hd x y hx.1 hx.2 hy.1 hy.2 e
        · have := (hr.pos x hx.1 hx.2).1
          rw [hy, hr.last] at e; omega
        · have := (hr.pos y hy.1 hy.2).1
          rw [hx, hr.last] at e; omega
        · rw [hx, hy])
      refine ⟨sm, _, by rw [directSuffixArrayC_eq, s1, Res.ok_bind], s1, s2, ?_⟩
      rw [List.length_map]
      omega
    · simp only [if_neg hd]
      rw [List.length_map] at hd
      have h1 := hr.K_le
      have h2 := hr.K_pos
      obtain ⟨sa, c', a1, a2, a3, a4⟩ := ih ((offs T).map nm) K' c hval (by rw [List.length_map]; omega)
        (List.length_map _) (by rw [List.length_map]; omega)
      exact ⟨sa, c', a1, a2, a3, by omega⟩
  obtain ⟨c1, e1, e1'⟩ := reduceProblemC_le T l r2 r3
    (c + 1 + (T.length - 1) + T.length + sizes.length + T.length + sizes.length + sa1.length + sizes.length + sa2.length)
    _ q1
  obtain ⟨summary, c2, s0, s1, s2, s3⟩ := hsum c1
  obtain ⟨l2, g1, g2, g3⟩ := finish hB hr summary s2
  obtain ⟨sb1, j1, g1'⟩ := bind_is_ok.1 g1
  obtain ⟨sb2, j2, j3⟩ := bind_is_ok.1 g1'
  have hm3 : (l2.map some).length = T.length + 1 := by rw [List.length_map, g2.length_eq, List.length_range]
  have hm2 : sb2.length = T.length + 1 := by rw [← inductionSLoop_length _ _ _ _ _ _ j3, hm3]
  have hm1 : sb1.length = T.length + 1 := by rw [← inductionLLoop_length _ _ _ _ _ _ _ j2, hm2]
  have hsmlen : summary.length = (offs T).length + 1 := by
    obtain ⟨l3, rfl, h3, -⟩ := s2
    rw [List.length_map, h3.length_eq, List.length_range, List.length_map]
  refine ⟨l2.map some, c2 + sizes.length + (summary.length - 2) + sizes.length + sb1.length + sizes.length + sb2.length,
    ?_, ?_, ⟨l2, rfl, g2, g3⟩, by omega⟩
  · rw [buildSuffixArrayRecC]
    simp only [suffixTypesAuxC_eq, hty, getBucketSizesC_eq, hsz, Res.ok_bind, identifyLmsC_eq, i1, inductionSortLC_eq, i2,
      inductionSortSC_eq, i3, e1]
    by_cases hd : K' = ((offs T).map nm).length
    · rw [if_pos hd] at s0 ⊢
      simp only [s0, Res.ok_bind, placeLmsC_eq, j1, j2, j3]
    · rw [if_neg hd] at s0 ⊢
      simp only [s0, Res.ok_bind, placeLmsC_eq, j1, j2, j3]
  · rw [buildSuffixArrayRec]
    simp only [hsz, Res.ok_bind, i1, i2, i3, q1]
    by_cases hd : K' = ((offs T).map nm).length
    · rw [if_pos hd] at s1 ⊢
      simp only [s1, Res.ok_bind, j1, j2, j3]
    · rw [if_neg hd] at s1 ⊢
      simp only [s1, Res.ok_bind, j1, j2, j3]

/-- The whole recursion. -/
theorem buildC_le (k fuel : Nat) (T : List Nat) (K c : Nat) (hK : ∀ x ∈ T, x < K) (hf : T.length ≤ 2 ^ k)
    (hk : k < fuel) :
    ∃ sa c', buildSuffixArrayRecC fuel T K c = Res.ok (sa, c') ∧ buildSuffixArrayRec fuel T K = Res.ok sa ∧
      IsSA T sa ∧ c' ≤ c + 28 * T.length + 6 * K + 40 * (k + 1) := by
  induction k generalizing T K c fuel with
  | zero =>
    obtain ⟨fuel, rfl⟩ : ∃ f, fuel = f + 1 := ⟨fuel - 1, by omega⟩
    have hoff : (offs T).length ≤ 1 := by
      by_cases hT : T = []
      · subst hT; simp [offs]
      · have := offs_half T hT; simp at hf; omega
    obtain ⟨sa, c', h1, h2, h3, h4⟩ := buildC_step fuel T K c 0 hK (fun R K' c hR h2 hl _ => by omega)
    exact ⟨sa, c', h1, h2, h3, by omega⟩
  | succ k ih =>
    obtain ⟨fuel, rfl⟩ : ∃ f, fuel = f + 1 := ⟨fuel - 1, by omega⟩
    by_cases hT : T = []
    · subst hT
      obtain ⟨sa, c', h1, h2, h3, h4⟩ := buildC_step fuel [] K c 0 hK (fun R K' c hR h2 hl _ => by
        simp [offs] at hl; omega)
      refine ⟨sa, c', h1, h2, h3, ?_⟩
      simp [offs] at h4
      simp
      omega
    · have hhalf := offs_half T hT
      obtain ⟨sa, c', h1, h2, h3, h4⟩ := buildC_step fuel T K c (34 * (offs T).length + 40 * (k + 1)) hK
        (fun R K' c hR h2 hl hKR => by
          obtain ⟨sa, c', a1, a2, a3, a4⟩ := ih fuel R K' c hR (by rw [Nat.pow_succ] at hf; omega) (by omega)
          exact ⟨sa, c', a1, a2, a3, by omega⟩)
      refine ⟨sa, c', h1, h2, h3, ?_⟩
      omega

end Sais

end Ribzip2
