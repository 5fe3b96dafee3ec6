import Verif.Proofs.SaisSeed
/- Keys of LMS substrings, and the comparison of LMS blocks. -/
namespace Ribzip2.Sais
open Induce

/-- The part of the text from `i` that the L pass sorts by: a run of L positions and the S position after it. -/
def keyL (T : List Nat) (i : Nat) : List Nat :=
  if i < T.length then
    if typ T i then [2 * chr T i + 1] else (2 * chr T i) :: keyL T (i + 1)
  else []
termination_by T.length - i

/-- The part of the text from `i` that the S pass sorts by. -/
def keyS (T : List Nat) (i : Nat) : List Nat :=
  if i < T.length then
    if typ T i then (2 * chr T i + 1) :: keyS T (i + 1) else keyL T i
  else []
termination_by T.length - i

theorem keyL_end {T : List Nat} {i : Nat} (h : T.length ≤ i) : keyL T i = [] := by
  rw [keyL, if_neg (by omega)]
theorem keyL_S {T : List Nat} {i : Nat} (h : i < T.length) (ht : typ T i = true) :
    keyL T i = [2 * chr T i + 1] := by rw [keyL, if_pos h, if_pos ht]
theorem keyL_L {T : List Nat} {i : Nat} (h : i < T.length) (ht : typ T i = false) :
    keyL T i = (2 * chr T i) :: keyL T (i + 1) := by
  rw [keyL, if_pos h, if_neg (by simp [ht])]
theorem keyS_end {T : List Nat} {i : Nat} (h : T.length ≤ i) : keyS T i = [] := by
  rw [keyS, if_neg (by omega)]
theorem keyS_S {T : List Nat} {i : Nat} (h : i < T.length) (ht : typ T i = true) :
    keyS T i = (2 * chr T i + 1) :: keyS T (i + 1) := by rw [keyS, if_pos h, if_pos ht]
theorem keyS_L {T : List Nat} {i : Nat} (h : i < T.length) (ht : typ T i = false) :
    keyS T i = keyL T i := by
  rw [keyS, if_pos h, if_neg (by simp [ht])]

theorem keyL_cons {T : List Nat} {i : Nat} (h : i < T.length) :
    ∃ r, keyL T i = (2 * chr T i + (if typ T i then 1 else 0)) :: r := by
  cases ht : typ T i with
  | true => exact ⟨_, by rw [keyL_S h ht]; rfl⟩
  | false => exact ⟨_, by rw [keyL_L h ht]; rfl⟩

theorem keyS_cons {T : List Nat} {i : Nat} (h : i < T.length) :
    ∃ r, keyS T i = (2 * chr T i + (if typ T i then 1 else 0)) :: r := by
  cases ht : typ T i with
  | true => exact ⟨_, by rw [keyS_S h ht]; rfl⟩
  | false => exact ⟨_, by rw [keyS_L h ht, keyL_L h ht]; rfl⟩

theorem cons_le_of_lt {a b : Nat} {r s : List Nat} (h : a < b) : a :: r ≤ b :: s := by
  rw [List.cons_le_cons_iff]; exact Or.inl h

theorem compat_keyL (T : List Nat) : Compat T false fun p p' => keyL T p ≤ keyL T p' := by
  refine ⟨?_, ?_, ?_, ?_⟩
  · intro p hp
    rw [keyL_end (Nat.le_refl _)]
    exact List.nil_le _
  · intro p p' hp hp' hc
    obtain ⟨r, e⟩ := keyL_cons hp
    obtain ⟨r', e'⟩ := keyL_cons hp'
    rw [e, e']
    refine cons_le_of_lt ?_
    split <;> split <;> omega
  · intro p p' hp hp' hc ht ht'
    rw [keyL_L hp ht, keyL_S hp' ht']
    exact cons_le_of_lt (by omega)
  · intro p p' hp hp' hc ht ht' h
    rw [keyL_L hp ht, keyL_L hp' ht', hc, List.cons_le_cons_iff]
    exact Or.inr ⟨rfl, h⟩

theorem compat_keyS (T : List Nat) : Compat T true fun p p' => keyS T p ≤ keyS T p' := by
  refine ⟨?_, ?_, ?_, ?_⟩
  · intro p hp
    rw [keyS_end (Nat.le_refl _)]
    exact List.nil_le _
  · intro p p' hp hp' hc
    obtain ⟨r, e⟩ := keyS_cons hp
    obtain ⟨r', e'⟩ := keyS_cons hp'
    rw [e, e']
    refine cons_le_of_lt ?_
    split <;> split <;> omega
  · intro p p' hp hp' hc ht ht'
    rw [keyS_L hp ht, keyL_L hp ht, keyS_S hp' ht']
    exact cons_le_of_lt (by omega)
  · intro p p' hp hp' hc ht ht' h
    rw [keyS_S hp ht, keyS_S hp' ht', hc, List.cons_le_cons_iff]
    exact Or.inr ⟨rfl, h⟩

/-- Smaller keys mean smaller suffixes. -/
theorem suffix_of_keyL {T : List Nat} {p q : Nat} (h : keyL T p < keyL T q) : T.drop p < T.drop q := by
  induction hm : T.length - p generalizing p q with
  | zero =>
    have hq : q < T.length := by
      by_contra hq
      rw [keyL_end (i := q) (by omega)] at h
      exact absurd h (List.not_lt_nil _)
    exact suffix_lt_end (by omega) hq
  | succ m ih =>
    have hp : p < T.length := by omega
    have hq : q < T.length := by
      by_contra hq
      rw [keyL_end (i := q) (by omega)] at h
      exact absurd h (List.not_lt_nil _)
    cases ht : typ T p with
    | true =>
      rw [keyL_S hp ht] at h
      cases ht' : typ T q with
      | true =>
        rw [keyL_S hq ht', List.cons_lt_cons_iff] at h
        rcases h with h | h
        · exact suffix_lt_of_chr hp hq (by omega)
        · exact absurd h.2 (List.not_lt_nil _)
      | false =>
        rw [keyL_L hq ht', List.cons_lt_cons_iff] at h
        exact suffix_lt_of_chr hp hq (by omega)
    | false =>
      rw [keyL_L hp ht] at h
      cases ht' : typ T q with
      | true =>
        rw [keyL_S hq ht', List.cons_lt_cons_iff] at h
        rcases Nat.lt_or_ge (chr T p) (chr T q) with hc | hc
        · exact suffix_lt_of_chr hp hq hc
        · exact suffix_L_lt_S hp hq (by omega) ht ht'
      | false =>
        rw [keyL_L hq ht', List.cons_lt_cons_iff] at h
        rcases h with h | h
        · exact suffix_lt_of_chr hp hq (by omega)
        · rw [suffix_lt_iff hp hq (by omega)]
          exact ih h.2 (by omega)

theorem suffix_of_keyS {T : List Nat} {p q : Nat} (h : keyS T p < keyS T q) : T.drop p < T.drop q := by
  induction hm : T.length - p generalizing p q with
  | zero =>
    have hq : q < T.length := by
      by_contra hq
      rw [keyS_end (i := q) (by omega)] at h
      exact absurd h (List.not_lt_nil _)
    exact suffix_lt_end (by omega) hq
  | succ m ih =>
    have hp : p < T.length := by omega
    have hq : q < T.length := by
      by_contra hq
      rw [keyS_end (i := q) (by omega)] at h
      exact absurd h (List.not_lt_nil _)
    cases ht : typ T p with
    | true =>
      rw [keyS_S hp ht] at h
      cases ht' : typ T q with
      | true =>
        rw [keyS_S hq ht', List.cons_lt_cons_iff] at h
        rcases h with h | h
        · exact suffix_lt_of_chr hp hq (by omega)
        · rw [suffix_lt_iff hp hq (by omega)]
          exact ih h.2 (by omega)
      | false =>
        rw [keyS_L hq ht', keyL_L hq ht', List.cons_lt_cons_iff] at h
        exact suffix_lt_of_chr hp hq (by omega)
    | false =>
      rw [keyS_L hp ht] at h
      cases ht' : typ T q with
      | true =>
        rw [keyL_L hp ht, keyS_S hq ht', List.cons_lt_cons_iff] at h
        rcases Nat.lt_or_ge (chr T p) (chr T q) with hc | hc
        · exact suffix_lt_of_chr hp hq hc
        · exact suffix_L_lt_S hp hq (by omega) ht ht'
      | false =>
        rw [keyS_L hq ht'] at h
        exact suffix_of_keyL h

/-! ### equal blocks -/

/-- The blocks at `p` and `q` have the length `i` and the same characters; a leftmost S position ends each. -/
structure EqAt (T : List Nat) (p q i : Nat) : Prop where
  pos : 1 ≤ i
  lms_p : lms T (p + i) = true
  lms_q : lms T (q + i) = true
  lt_p : p + i < T.length
  lt_q : q + i < T.length
  none_p : ∀ j, 1 ≤ j → j < i → lms T (p + j) = false
  none_q : ∀ j, 1 ≤ j → j < i → lms T (q + j) = false
  chars : ∀ j, j < i → chr T (p + j) = chr T (q + j)

def EqBlocks (T : List Nat) (p q : Nat) : Prop := ∃ i, EqAt T p q i

theorem EqBlocks.symm {T : List Nat} {p q : Nat} (h : EqBlocks T p q) : EqBlocks T q p := by
  obtain ⟨i, h⟩ := h
  exact ⟨i, h.pos, h.lms_q, h.lms_p, h.lt_q, h.lt_p, h.none_q, h.none_p, fun j hj => (h.chars j hj).symm⟩

theorem EqBlocks.trans {T : List Nat} {p q r : Nat} (h : EqBlocks T p q) (h' : EqBlocks T q r) :
    EqBlocks T p r := by
  obtain ⟨i, h⟩ := h
  obtain ⟨i', h'⟩ := h'
  have : i = i' := by
    rcases Nat.lt_trichotomy i i' with hl | hl | hl
    · have := h'.none_p i h.pos hl
      rw [h.lms_q] at this; exact absurd this (by simp)
    · exact hl
    · have := h.none_q i' h'.pos hl
      rw [h'.lms_p] at this; exact absurd this (by simp)
  subst this
  exact ⟨i, h.pos, h.lms_p, h'.lms_q, h.lt_p, h'.lt_q, h.none_p, h'.none_q,
    fun j hj => (h.chars j hj).trans (h'.chars j hj)⟩

/-- With equal blocks the order of two suffixes is that of the next leftmost S positions. -/
theorem suffix_lt_skip {T : List Nat} {p q : Nat} (i : Nat) (hp : p + i ≤ T.length) (hq : q + i ≤ T.length)
    (h : ∀ j, j < i → chr T (p + j) = chr T (q + j)) :
    T.drop p < T.drop q ↔ T.drop (p + i) < T.drop (q + i) := by
  induction i with
  | zero => rfl
  | succ i ih =>
    rw [ih (by omega) (by omega) (fun j hj => h j (by omega)),
      suffix_lt_iff (by omega) (by omega) (h i (by omega))]
    rfl

theorem lms_lt {T : List Nat} {p : Nat} (h : lms T p = true) (hp : p ≤ T.length) : p < T.length := by
  rcases Nat.lt_or_eq_of_le hp with h' | rfl
  · exact h'
  · rw [lms_end] at h; exact absurd h (by simp)

theorem lmsEqualLoop_spec (T : List Nat) (p q fuel i : Nat) (hf0 : 0 < fuel)
    (hf : T.length < fuel + i) :
    ∃ b, lmsEqualLoop T (getSuffixTypes T) p q fuel i = Res.ok b ∧
      (b = true ↔ ∃ k, i ≤ k ∧ p + k < T.length ∧ q + k < T.length ∧ lms T (p + k) = true ∧ lms T (q + k) = true ∧
        ∀ j, i ≤ j → j < k → lms T (p + j) = false ∧ lms T (q + j) = false ∧ chr T (p + j) = chr T (q + j)) := by
  induction fuel generalizing i with
  | zero => omega
  | succ fuel ih =>
    rw [lmsEqualLoop]
    by_cases hg : i + q < T.length ∧ i + p < T.length
    · rw [if_pos hg, isLms_eq T _ (by omega), Res.ok_bind, isLms_eq T _ (by omega), Res.ok_bind]
      by_cases hb : lms T (p + i) = true ∧ lms T (q + i) = true
      · rw [hb.1, hb.2]
        refine ⟨true, rfl, iff_of_true rfl ⟨i, Nat.le_refl _, by omega, by omega, hb.1, hb.2, ?_⟩⟩
        intro j h1 h2; omega
      · rw [if_neg (by simpa using hb)]
        by_cases hne : lms T (p + i) = lms T (q + i)
        · have hp0 : lms T (p + i) = false := by
            cases h1 : lms T (p + i) with
            | false => rfl
            | true => exact absurd ⟨h1, by rw [← hne]; exact h1⟩ hb
          have hq0 : lms T (q + i) = false := by rw [← hne]; exact hp0
          rw [if_neg (by simp [hne]), idx_chr T _ (by omega), Res.ok_bind, idx_chr T _ (by omega), Res.ok_bind]
          by_cases hc : chr T (p + i) = chr T (q + i)
          · rw [if_neg (by simpa using hc)]
            obtain ⟨b, h1, h2⟩ := ih (i + 1) (by omega) (by omega)
            refine ⟨b, h1, h2.trans ⟨?_, ?_⟩⟩
            · rintro ⟨k, k1, k2, k3, k4, k5, k6⟩
              refine ⟨k, by omega, k2, k3, k4, k5, ?_⟩
              intro j j1 j2
              by_cases hj : j = i
              · subst hj; exact ⟨hp0, hq0, hc⟩
              · exact k6 j (by omega) j2
            · rintro ⟨k, k1, k2, k3, k4, k5, k6⟩
              have : k ≠ i := by
                rintro rfl
                rw [hp0] at k4; exact absurd k4 (by simp)
              exact ⟨k, by omega, k2, k3, k4, k5, fun j j1 j2 => k6 j (by omega) j2⟩
          · rw [if_pos hc]
            refine ⟨false, rfl, iff_of_false (by simp) ?_⟩
            rintro ⟨k, k1, k2, k3, k4, k5, k6⟩
            have : k ≠ i := by
              rintro rfl
              rw [hp0] at k4; exact absurd k4 (by simp)
            exact hc (k6 i (Nat.le_refl _) (by omega)).2.2
        · rw [if_pos (by simpa using hne)]
          refine ⟨false, rfl, iff_of_false (by simp) ?_⟩
          rintro ⟨k, k1, k2, k3, k4, k5, k6⟩
          have : k ≠ i := by
            rintro rfl
            exact hb ⟨k4, k5⟩
          have := k6 i (Nat.le_refl _) (by omega)
          exact hne (this.1.trans this.2.1.symm)
    · rw [if_neg hg]
      refine ⟨false, rfl, iff_of_false (by simp) ?_⟩
      rintro ⟨k, k1, k2, k3, -⟩
      omega

theorem areEqual_spec (T : List Nat) (p q : Nat) (hp : p ≤ T.length) (hq : q ≤ T.length) :
    ∃ b, areLmsBlocksEqual T p q (getSuffixTypes T) = Res.ok b ∧ (b = true ↔ EqBlocks T p q) := by
  unfold areLmsBlocksEqual
  by_cases he : p = T.length ∨ q = T.length
  · rw [if_pos he]
    refine ⟨false, rfl, iff_of_false (by simp) ?_⟩
    rintro ⟨i, h⟩
    have := h.lt_p
    have := h.lt_q
    omega
  · rw [if_neg he, idx_chr T p (by omega), Res.ok_bind, idx_chr T q (by omega), Res.ok_bind]
    by_cases hc : chr T p = chr T q
    · rw [if_neg (by simpa using hc)]
      obtain ⟨b, h1, h2⟩ := lmsEqualLoop_spec T p q (T.length + 1) 1 (by omega) (by omega)
      refine ⟨b, h1, h2.trans ⟨?_, ?_⟩⟩
      · rintro ⟨k, k1, k2, k3, k4, k5, k6⟩
        refine ⟨k, k1, k4, k5, k2, k3, fun j j1 j2 => (k6 j j1 j2).1, fun j j1 j2 => (k6 j j1 j2).2.1, ?_⟩
        intro j j2
        by_cases hj : j = 0
        · subst hj; exact hc
        · exact (k6 j (by omega) j2).2.2
      · rintro ⟨k, h⟩
        exact ⟨k, h.pos, h.lt_p, h.lt_q, h.lms_p, h.lms_q,
          fun j j1 j2 => ⟨h.none_p j j1 j2, h.none_q j j1 j2, h.chars j j2⟩⟩
    · rw [if_pos hc]
      refine ⟨false, rfl, iff_of_false (by simp) ?_⟩
      rintro ⟨i, h⟩
      exact hc (h.chars 0 h.pos)

/-- Equal keys of the L part: both runs of L positions end at an S position. -/
theorem keyL_eq {T : List Nat} {p q : Nat} (hp : p ≤ T.length) (hq : q ≤ T.length) (hpq : p ≠ q)
    (h : keyL T p = keyL T q) :
    ∃ i, p + i < T.length ∧ q + i < T.length ∧ typ T (p + i) = true ∧ typ T (q + i) = true ∧
      ∀ j, j < i → typ T (p + j) = false ∧ typ T (q + j) = false ∧ chr T (p + j) = chr T (q + j) := by
  induction hm : T.length - p generalizing p q with
  | zero =>
    rw [keyL_end (i := p) (by omega)] at h
    obtain ⟨r, e⟩ := keyL_cons (T := T) (i := q) (by omega)
    rw [e] at h; exact absurd h (by simp)
  | succ m ih =>
    have hp : p < T.length := by omega
    have hq : q < T.length := by
      by_contra hq
      obtain ⟨r, e⟩ := keyL_cons hp
      rw [e, keyL_end (i := q) (by omega)] at h
      exact absurd h (by simp)
    cases ht : typ T p with
    | true =>
      cases ht' : typ T q with
      | true => exact ⟨0, hp, hq, ht, ht', fun j hj => by omega⟩
      | false =>
        rw [keyL_S hp ht, keyL_L hq ht', List.cons.injEq] at h
        omega
    | false =>
      cases ht' : typ T q with
      | true =>
        rw [keyL_L hp ht, keyL_S hq ht', List.cons.injEq] at h
        omega
      | false =>
        rw [keyL_L hp ht, keyL_L hq ht', List.cons.injEq] at h
        obtain ⟨i, i1, i2, i3, i4, i5⟩ := ih (p := p + 1) (q := q + 1) (by omega) (by omega) (by omega) h.2 (by omega)
        refine ⟨i + 1, by omega, by omega, by rw [← i3]; congr 1; omega, by rw [← i4]; congr 1; omega, ?_⟩
        intro j hj
        cases j with
        | zero => exact ⟨ht, ht', by have := h.1; simp only [Nat.add_zero]; omega⟩
        | succ j =>
          have := i5 j (by omega)
          rw [show p + (j + 1) = p + 1 + j by omega, show q + (j + 1) = q + 1 + j by omega]
          exact this

/-- Different S positions with equal keys have equal blocks. -/
theorem keyS_eq {T : List Nat} {p q : Nat} (hp : p < T.length) (hq : q < T.length) (hpq : p ≠ q)
    (ht : typ T p = true) (h : keyS T p = keyS T q) : EqBlocks T p q := by
  induction hm : T.length - p generalizing p q with
  | zero => omega
  | succ m ih =>
    obtain ⟨hp1, -⟩ := typ_S hp ht
    have ht' : typ T q = true := by
      cases ht' : typ T q with
      | true => rfl
      | false =>
        rw [keyS_S hp ht, keyS_L hq ht', keyL_L hq ht', List.cons.injEq] at h
        omega
    obtain ⟨hq1, -⟩ := typ_S hq ht'
    rw [keyS_S hp ht, keyS_S hq ht', List.cons.injEq] at h
    have hc : chr T p = chr T q := by omega
    have nl : ∀ r, typ T r = true → lms T (r + 1) = false := by
      intro r hr
      simp [lms, hr]
    cases hs : typ T (p + 1) with
    | true =>
      obtain ⟨i, e⟩ := ih hp1 hq1 (by omega) hs h.2 (by omega)
      refine ⟨i + 1, by omega, by rw [← e.lms_p]; congr 1; omega, by rw [← e.lms_q]; congr 1; omega,
        by have := e.lt_p; omega, by have := e.lt_q; omega, ?_, ?_, ?_⟩
      · intro j j1 j2
        by_cases hj : j = 1
        · subst hj; exact nl p ht
        · have := e.none_p (j - 1) (by omega) (by omega)
          rw [← this]; congr 1; omega
      · intro j j1 j2
        by_cases hj : j = 1
        · subst hj; exact nl q ht'
        · have := e.none_q (j - 1) (by omega) (by omega)
          rw [← this]; congr 1; omega
      · intro j hj
        cases j with
        | zero => exact hc
        | succ j =>
          have := e.chars j (by omega)
          rw [show p + (j + 1) = p + 1 + j by omega, show q + (j + 1) = q + 1 + j by omega]
          exact this
    | false =>
      have hs' : typ T (q + 1) = false := by
        cases hs' : typ T (q + 1) with
        | false => rfl
        | true =>
          have := h.2
          rw [keyS_L hp1 hs, keyL_L hp1 hs, keyS_S hq1 hs', List.cons.injEq] at this
          omega
      have h2 := h.2
      rw [keyS_L hp1 hs, keyS_L hq1 hs'] at h2
      obtain ⟨i, i1, i2, i3, i4, i5⟩ := keyL_eq (by omega) (by omega) (by omega) h2
      have hi : i ≠ 0 := by
        rintro rfl
        rw [Nat.add_zero, hs] at i3
        exact absurd i3 (by simp)
      have hl := i5 (i - 1) (by omega)
      refine ⟨i + 1, by omega, lms_iff.2 ⟨by omega, by rw [← i3]; congr 1; omega, ?_⟩,
        lms_iff.2 ⟨by omega, by rw [← i4]; congr 1; omega, ?_⟩, by omega, by omega, ?_, ?_, ?_⟩
      · rw [← hl.1]; congr 1; omega
      · rw [← hl.2.1]; congr 1; omega
      · intro j j1 j2
        have := (i5 (j - 1) (by omega)).1
        rw [show p + 1 + (j - 1) = p + j by omega] at this
        simp [lms, this]
      · intro j j1 j2
        have := (i5 (j - 1) (by omega)).2.1
        rw [show q + 1 + (j - 1) = q + j by omega] at this
        simp [lms, this]
      · intro j hj
        cases j with
        | zero => exact hc
        | succ j =>
          have := (i5 j (by omega)).2.2
          rw [show p + (j + 1) = p + 1 + j by omega, show q + (j + 1) = q + 1 + j by omega]
          exact this

end Ribzip2.Sais
