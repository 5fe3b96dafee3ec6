import Verif.Proofs.Induce
/- Types, buckets and suffix order of a text of numbers. -/
namespace Ribzip2.Sais
open Induce

/-- Character at a position. -/
def chr (T : List Nat) (i : Nat) : Nat := T.getD i 0

/-- Type of a position (`true` is S). -/
def typ (T : List Nat) (i : Nat) : Bool := (getSuffixTypes T).getD i false

theorem suffixTypesAux_length (T : List Nat) : (suffixTypesAux T).length = T.length := by
  induction T with
  | nil => rfl
  | cons a T ih =>
    cases T with
    | nil => rfl
    | cons b T => simp only [suffixTypesAux, List.length_cons] at *; omega

theorem types_length (T : List Nat) : (getSuffixTypes T).length = T.length + 2 := by
  simp [getSuffixTypes, suffixTypesAux_length]

theorem idx_types (T : List Nat) (i : Nat) (h : i ≤ T.length + 1) :
    idx (getSuffixTypes T) i = Res.ok (typ T i) := by
  have : i < (getSuffixTypes T).length := by rw [types_length]; omega
  simp [idx, typ, List.getD, List.getElem?_eq_getElem this]

theorem idx_chr (T : List Nat) (i : Nat) (h : i < T.length) : idx T i = Res.ok (chr T i) := by
  simp [idx, chr, List.getD, List.getElem?_eq_getElem h]

theorem typ_end (T : List Nat) : typ T T.length = false := by
  rw [typ, getSuffixTypes, List.getD, List.getElem?_append_right (by rw [suffixTypesAux_length]; exact Nat.le_refl _),
    suffixTypesAux_length]
  simp

theorem typ_eq_aux (T : List Nat) (i : Nat) (h : i < T.length) :
    typ T i = (suffixTypesAux T).getD i false := by
  rw [typ, getSuffixTypes, List.getD, List.getD,
    List.getElem?_append_left (by rw [suffixTypesAux_length]; exact h)]

theorem aux_getD (T : List Nat) (i : Nat) (h : i < T.length) :
    (suffixTypesAux T).getD i false =
      (decide (i + 1 < T.length) && (decide (chr T i < chr T (i + 1)) ||
        (decide (chr T i = chr T (i + 1)) && (suffixTypesAux T).getD (i + 1) false))) := by
  induction T generalizing i with
  | nil => simp at h
  | cons a T ih =>
    cases T with
    | nil =>
      have : i = 0 := by simp at h; omega
      subst this
      rfl
    | cons b T =>
      cases i with
      | zero =>
        simp only [suffixTypesAux]
        rw [show chr (a :: b :: T) 0 = a from rfl, show chr (a :: b :: T) (0 + 1) = b from rfl]
        have hh : (suffixTypesAux (b :: T)).headD false = (suffixTypesAux (b :: T)).getD 0 false := by
          cases suffixTypesAux (b :: T) <;> rfl
        rw [hh]
        simp only [List.getD_cons_zero, List.getD_cons_succ, List.length_cons]
        by_cases h1 : a < b
        · simp [h1]
        · by_cases h2 : a = b
          · simp [h2]
          · simp [h1, h2]
      | succ i =>
        have := ih i (by simpa using h)
        simp only [suffixTypesAux] at this ⊢
        simp only [List.getD_cons_succ]
        rw [this]
        simp [chr]

theorem typ_rec (T : List Nat) (i : Nat) (h : i < T.length) :
    typ T i = (decide (i + 1 < T.length) && (decide (chr T i < chr T (i + 1)) ||
        (decide (chr T i = chr T (i + 1)) && typ T (i + 1)))) := by
  rw [typ_eq_aux T i h, aux_getD T i h]
  by_cases h1 : i + 1 < T.length
  · rw [typ_eq_aux T (i + 1) h1]
  · simp [h1]

/-- A type S position is followed by a position with a larger character or an equal one of type S. -/
theorem typ_S {T : List Nat} {i : Nat} (h : i < T.length) (hs : typ T i = true) :
    i + 1 < T.length ∧ (chr T i < chr T (i + 1) ∨ (chr T i = chr T (i + 1) ∧ typ T (i + 1) = true)) := by
  rw [typ_rec T i h] at hs
  simpa using hs

theorem typ_L {T : List Nat} {i : Nat} (h : i < T.length) (hs : typ T i = false) :
    i + 1 = T.length ∨ (i + 1 < T.length ∧ (chr T (i + 1) < chr T i ∨
      (chr T i = chr T (i + 1) ∧ typ T (i + 1) = false))) := by
  by_cases h1 : i + 1 < T.length
  · right
    refine ⟨h1, ?_⟩
    rw [typ_rec T i h] at hs
    simp only [h1, decide_true, Bool.true_and, Bool.or_eq_false_iff, decide_eq_false_iff_not,
      Bool.and_eq_false_iff] at hs
    rcases Nat.lt_trichotomy (chr T i) (chr T (i + 1)) with h2 | h2 | h2
    · exact absurd h2 hs.1
    · right
      refine ⟨h2, ?_⟩
      rcases hs.2 with h3 | h3
      · exact absurd h2 h3
      · exact h3
    · exact Or.inl h2
  · left; omega

/-! ### leftmost S positions -/

def lms (T : List Nat) (i : Nat) : Bool := decide (i ≠ 0) && (typ T i && !typ T (i - 1))

theorem isLms_eq (T : List Nat) (i : Nat) (h : i ≤ T.length + 1) :
    isLms (getSuffixTypes T) i = Res.ok (lms T i) := by
  unfold isLms lms
  by_cases h0 : i = 0
  · simp [h0]
  · rw [if_neg h0, idx_types T i h, Res.ok_bind]
    cases ht : typ T i with
    | true => simp [idx_types T (i - 1) (by omega), h0]
    | false => simp

theorem lms_iff {T : List Nat} {i : Nat} : lms T i = true ↔ i ≠ 0 ∧ typ T i = true ∧ typ T (i - 1) = false := by
  simp [lms]

theorem lms_end (T : List Nat) : lms T T.length = false := by
  simp [lms, typ_end]

/-! ### suffix order -/

theorem drop_eq (T : List Nat) (i : Nat) (h : i < T.length) : T.drop i = chr T i :: T.drop (i + 1) := by
  rw [List.drop_eq_getElem_cons h]
  simp [chr, List.getD, List.getElem?_eq_getElem h]

theorem suffix_lt_of_chr {T : List Nat} {i j : Nat} (hi : i < T.length) (hj : j < T.length)
    (h : chr T i < chr T j) : T.drop i < T.drop j := by
  rw [drop_eq T i hi, drop_eq T j hj, List.cons_lt_cons_iff]
  exact Or.inl h

theorem suffix_lt_iff {T : List Nat} {i j : Nat} (hi : i < T.length) (hj : j < T.length)
    (h : chr T i = chr T j) : T.drop i < T.drop j ↔ T.drop (i + 1) < T.drop (j + 1) := by
  rw [drop_eq T i hi, drop_eq T j hj, List.cons_lt_cons_iff, h]
  constructor
  · rintro (h' | h')
    · exact absurd h' (Nat.lt_irrefl _)
    · exact h'.2
  · exact fun h' => Or.inr ⟨rfl, h'⟩

theorem suffix_lt_end {T : List Nat} {i j : Nat} (hi : T.length ≤ i) (hj : j < T.length) :
    T.drop i < T.drop j := by
  rw [List.drop_of_length_le hi, drop_eq T j hj]
  exact List.nil_lt_cons _ _

/-- In a bucket the L suffixes come before the S suffixes. -/
theorem suffix_L_lt_S {T : List Nat} {i j : Nat} (hi : i < T.length) (hj : j < T.length)
    (hc : chr T i = chr T j) (hL : typ T i = false) (hS : typ T j = true) : T.drop i < T.drop j := by
  induction hm : T.length - i generalizing i j with
  | zero => omega
  | succ m ih =>
    rw [suffix_lt_iff hi hj hc]
    obtain ⟨hj1, hS'⟩ := typ_S hj hS
    rcases typ_L hi hL with h1 | ⟨hi1, hL'⟩
    · exact suffix_lt_end (by omega) hj1
    · rcases hL' with h2 | ⟨h2, h3⟩
      · refine suffix_lt_of_chr hi1 hj1 ?_
        rcases hS' with h4 | ⟨h4, -⟩ <;> omega
      · rcases hS' with h4 | ⟨h4, h5⟩
        · exact suffix_lt_of_chr hi1 hj1 (by omega)
        · exact ih hi1 hj1 (by omega) h3 h5 (by omega)

/-! ### buckets -/

/-- Number of positions with a character below `c`. -/
def cntLt (T : List Nat) (c : Nat) : Nat := T.countP fun x => decide (x < c)

theorem cntLt_zero (T : List Nat) : cntLt T 0 = 0 := by simp [cntLt]

theorem cntLt_succ (T : List Nat) (c : Nat) : cntLt T (c + 1) = cntLt T c + T.count c := by
  unfold cntLt
  induction T with
  | nil => rfl
  | cons a T ih =>
    simp only [List.countP_cons, List.count_cons, beq_iff_eq, decide_eq_true_eq] at *
    rw [ih]
    rcases Nat.lt_trichotomy a c with h | h | h
    · rw [if_pos (by omega), if_pos h, if_neg (by omega)]; omega
    · rw [if_pos (by omega), if_neg (by omega), if_pos h]; omega
    · rw [if_neg (by omega), if_neg (by omega), if_neg (by omega)]; omega

theorem cntLt_mono (T : List Nat) {c c' : Nat} (h : c ≤ c') : cntLt T c ≤ cntLt T c' := by
  induction c' with
  | zero => have : c = 0 := by omega
            subst this; exact Nat.le_refl _
  | succ c' ih =>
    rcases Nat.lt_or_eq_of_le h with h' | rfl
    · have := ih (by omega)
      rw [cntLt_succ]; omega
    · exact Nat.le_refl _

theorem cntLt_le (T : List Nat) (c : Nat) : cntLt T c ≤ T.length := List.countP_le_length

theorem getBucketSizes_spec (T : List Nat) (sizes : List Nat) (h : ∀ x ∈ T, x < sizes.length) :
    ∃ s, getBucketSizes T sizes = Res.ok s ∧ s.length = sizes.length ∧
      ∀ c, c < sizes.length → s.getD c 0 = sizes.getD c 0 + T.count c := by
  induction T generalizing sizes with
  | nil => exact ⟨sizes, rfl, rfl, by simp⟩
  | cons a T ih =>
    have ha := h a (by simp)
    rw [getBucketSizes]
    simp only [idx, List.getElem?_eq_getElem ha, Res.ofOption_some, Res.ok_bind, setIdx, if_pos ha]
    obtain ⟨s, h1, h2, h3⟩ := ih (sizes.set a (sizes[a] + 1)) (by
      intro x hx; rw [List.length_set]; exact h x (by simp [hx]))
    rw [List.length_set] at h2 h3
    refine ⟨s, h1, h2, ?_⟩
    intro c hc
    rw [h3 c hc]
    simp only [List.getD, List.getElem?_set, List.count_cons, beq_iff_eq]
    by_cases hac : a = c
    · subst hac
      simp [ha]; omega
    · simp [hac]

theorem heads_spec (sizes : List Nat) (T : List Nat) (o c0 : Nat)
    (h : ∀ c, c < sizes.length → sizes.getD c 0 = T.count (c0 + c)) (ho : o = 1 + cntLt T c0) :
    (bucketHeadsFrom o sizes).length = sizes.length ∧
      ∀ c, c < sizes.length → (bucketHeadsFrom o sizes)[c]? = some (1 + cntLt T (c0 + c)) := by
  induction sizes generalizing o c0 with
  | nil => exact ⟨rfl, by simp⟩
  | cons s sizes ih =>
    obtain ⟨h1, h2⟩ := ih (o + s) (c0 + 1) (by
      intro c hc
      have := h (c + 1) (by simpa using hc)
      rw [show c0 + 1 + c = c0 + (c + 1) by omega, ← this]; simp) (by
      have := h 0 (by simp)
      simp at this
      rw [cntLt_succ, ← this]; omega)
    refine ⟨by simp [bucketHeadsFrom, h1], ?_⟩
    intro c hc
    cases c with
    | zero => simp [bucketHeadsFrom, ho]
    | succ c =>
      rw [bucketHeadsFrom, List.getElem?_cons_succ, h2 c (by simpa using hc)]
      congr 3; omega

theorem tails_spec (sizes : List Nat) (T : List Nat) (o c0 : Nat)
    (h : ∀ c, c < sizes.length → sizes.getD c 0 = T.count (c0 + c)) (ho : o = 1 + cntLt T c0) :
    (bucketTailsFrom o sizes).length = sizes.length ∧
      ∀ c, c < sizes.length → (bucketTailsFrom o sizes)[c]? = some (cntLt T (c0 + c + 1)) := by
  induction sizes generalizing o c0 with
  | nil => exact ⟨rfl, by simp⟩
  | cons s sizes ih =>
    have h0 : s = T.count c0 := by
      have := h 0 (by simp)
      simpa using this
    obtain ⟨h1, h2⟩ := ih (o + s) (c0 + 1) (by
      intro c hc
      have := h (c + 1) (by simpa using hc)
      rw [show c0 + 1 + c = c0 + (c + 1) by omega, ← this]; simp) (by
      rw [cntLt_succ, ← h0]; omega)
    refine ⟨by simp [bucketTailsFrom, h1], ?_⟩
    intro c hc
    cases c with
    | zero => simp [bucketTailsFrom, ho, cntLt_succ, h0]; omega
    | succ c =>
      rw [bucketTailsFrom, List.getElem?_cons_succ, h2 c (by simpa using hc)]
      congr 2; omega

/-- Buckets of a text over the alphabet `0..K-1`. -/
structure Buckets (T : List Nat) (K : Nat) (sizes : List Nat) : Prop where
  chr_lt : ∀ x ∈ T, x < K
  heads_len : (bucketHeadsFrom 1 sizes).length = K
  tails_len : (bucketTailsFrom 1 sizes).length = K
  head : ∀ c, c < K → (bucketHeadsFrom 1 sizes)[c]? = some (1 + cntLt T c)
  tail : ∀ c, c < K → (bucketTailsFrom 1 sizes)[c]? = some (cntLt T (c + 1))

theorem buckets_exist (T : List Nat) (K : Nat) (h : ∀ x ∈ T, x < K) :
    ∃ sizes, getBucketSizes T (List.replicate K 0) = Res.ok sizes ∧ Buckets T K sizes := by
  obtain ⟨s, h1, h2, h3⟩ := getBucketSizes_spec T (List.replicate K 0) (by simpa using h)
  rw [List.length_replicate] at h2 h3
  have h4 : ∀ c, c < s.length → s.getD c 0 = T.count (0 + c) := by
    intro c hc
    rw [h3 c (by omega)]
    simp [List.getD, List.getElem?_replicate]
    split <;> simp
  obtain ⟨a1, a2⟩ := heads_spec s T 1 0 h4 (by rw [cntLt_zero])
  obtain ⟨b1, b2⟩ := tails_spec s T 1 0 h4 (by rw [cntLt_zero])
  refine ⟨s, h1, h, by rw [a1, h2], by rw [b1, h2], ?_, ?_⟩
  · intro c hc; rw [a2 c (by omega)]; simp
  · intro c hc; rw [b2 c (by omega)]; simp

/-! ### the two passes -/

/-- The pass placing L positions at the bucket heads, from left to right. -/
def passL (T : List Nat) : Pass :=
  ⟨T.length + 1, T.length, fun j => decide (j < T.length) && !typ T j, chr T, fun c => 1 + cntLt T c⟩

/-- The pass placing S positions at the bucket tails, from right to left. -/
def passS (T : List Nat) : Pass :=
  ⟨T.length + 1, T.length, fun j => decide (j < T.length) && typ T j, chr T,
    fun c => T.length - cntLt T (c + 1)⟩

theorem range_map_chr (T : List Nat) : (List.range T.length).map (chr T) = T := by
  apply List.ext_getElem
  · simp
  · intro i h1 h2
    simp [chr, List.getD, List.getElem?_eq_getElem h2]

theorem filter_split (l : List Nat) (p q : Nat → Bool) :
    (l.filter fun j => !p j && q j).length + (l.filter fun j => p j && q j).length = (l.filter q).length := by
  induction l with
  | nil => rfl
  | cons a l ih =>
    simp only [List.filter_cons]
    cases p a <;> cases q a <;> simp <;> omega

theorem sizes_add (T : List Nat) (c : Nat) :
    (passL T).size c + (passS T).size c = T.count c := by
  have e1 : (passL T).actives c = (List.range T.length).filter fun j => !typ T j && (chr T j == c) := by
    unfold Pass.actives passL
    apply List.filter_congr
    intro j hj
    rw [List.mem_range] at hj
    simp [hj]
  have e2 : (passS T).actives c = (List.range T.length).filter fun j => typ T j && (chr T j == c) := by
    unfold Pass.actives passS
    apply List.filter_congr
    intro j hj
    rw [List.mem_range] at hj
    simp [hj]
  rw [Pass.size, Pass.size, e1, e2, filter_split]
  conv_rhs => rw [← range_map_chr T]
  rw [List.count, List.countP_map, List.countP_eq_length_filter]
  rfl

/-- Every slot but the first lies in exactly one bucket. -/
theorem bucket_of_slot (T : List Nat) (x : Nat) (h1 : 1 ≤ x) (h2 : x ≤ T.length) :
    ∃ c, 1 + cntLt T c ≤ x ∧ x ≤ cntLt T (c + 1) := by
  have hbig : ∃ c, x ≤ cntLt T (c + 1) := by
    refine ⟨T.foldl max 0, ?_⟩
    have : cntLt T (T.foldl max 0 + 1) = T.length := by
      unfold cntLt
      rw [List.countP_eq_length]
      intro a ha
      have : ∀ (l : List Nat) (m : Nat), m ≤ l.foldl max m ∧ ∀ a ∈ l, a ≤ l.foldl max m := by
        intro l
        induction l with
        | nil => simp
        | cons b l ih =>
          intro m
          obtain ⟨i1, i2⟩ := ih (max m b)
          refine ⟨by simp only [List.foldl_cons]; omega, ?_⟩
          intro a ha
          simp only [List.foldl_cons]
          rcases List.mem_cons.1 ha with rfl | ha
          · omega
          · exact i2 a ha
      have := (this T 0).2 a ha
      simp; omega
    omega
  have hmin : ∃ c, x ≤ cntLt T (c + 1) ∧ ∀ c', c' < c → ¬ x ≤ cntLt T (c' + 1) := by
    obtain ⟨c, hc⟩ := hbig
    induction c using Nat.strongRecOn with
    | _ c ih =>
      by_cases h : ∃ c', c' < c ∧ x ≤ cntLt T (c' + 1)
      · obtain ⟨c', h3, h4⟩ := h
        exact ih c' h3 h4
      · exact ⟨c, hc, fun c' h3 h4 => h ⟨c', h3, h4⟩⟩
  obtain ⟨c, hc1, hc2⟩ := hmin
  refine ⟨c, ?_, hc1⟩
  cases c with
  | zero => rw [cntLt_zero]; omega
  | succ c => have := hc2 c (by omega); omega

theorem bucket_unique (T : List Nat) {x c c' : Nat} (h1 : 1 + cntLt T c ≤ x) (h2 : x ≤ cntLt T (c + 1))
    (h3 : 1 + cntLt T c' ≤ x) (h4 : x ≤ cntLt T (c' + 1)) : c = c' := by
  rcases Nat.lt_trichotomy c c' with h | h | h
  · have := cntLt_mono T (show c + 1 ≤ c' from h); omega
  · exact h
  · have := cntLt_mono T (show c' + 1 ≤ c from h); omega

end Ribzip2.Sais
