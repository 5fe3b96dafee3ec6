import Verif.Proofs.SaisRound
/- Naming the LMS substrings and the reduced text. -/
namespace Ribzip2.Sais
open Induce

theorem list_lt_of_lt_of_le {a b c : List Nat} (h1 : a < b) (h2 : b ≤ c) : a < c := by
  rcases List.le_iff_lt_or_eq.1 h2 with h | h
  · exact List.lt_trans h1 h
  · exact h ▸ h1

/-- The leftmost S positions `ds` have been named. -/
structure Named (T : List Nat) (ds : List Nat) (s : NameState) : Prop where
  len : s.names.length = T.length + 1
  zero : s.names.getD T.length none = some 0
  count : s.count = ds.length + 1
  lt : ∀ p ∈ ds, p < T.length ∧ lms T p = true
  only : ∀ p v, p < T.length → s.names.getD p none = some v → p ∈ ds ∧ 1 ≤ v ∧ v ≤ s.currentName
  named : ∀ p ∈ ds, ∃ v, s.names.getD p none = some v
  cur_le : s.currentName ≤ ds.length
  first : ds = [] → s.previous = T.length ∧ s.currentName = 0
  last : ds ≠ [] → s.previous ∈ ds ∧ s.names.getD s.previous none = some s.currentName
  prev_le : ∀ p ∈ ds, keyS T p ≤ keyS T s.previous
  less : ∀ p q v w, p ∈ ds → q ∈ ds → s.names.getD p none = some v → s.names.getD q none = some w →
    v < w → keyS T p < keyS T q
  same : ∀ p q v, p ∈ ds → q ∈ ds → s.names.getD p none = some v → s.names.getD q none = some v →
    p = q ∨ EqBlocks T p q
  distinct : s.currentName = ds.length → ∀ p q v, p ∈ ds → q ∈ ds → s.names.getD p none = some v →
    s.names.getD q none = some v → p = q

theorem named_step {T : List Nat} {ds : List Nat} {s : NameState} (h : Named T ds s) (cur : Nat)
    (hlt : cur < T.length) (hl : lms T cur = true) (hnew : cur ∉ ds)
    (hkey : ∀ p ∈ ds, keyS T p ≤ keyS T cur) (eq : Bool) (heq : eq = true ↔ EqBlocks T s.previous cur) :
    Named T (ds ++ [cur]) ⟨s.names.set cur (some (if eq then s.currentName else s.currentName + 1)),
      if eq then s.currentName else s.currentName + 1, cur, s.count + 1⟩ := by
  have hlen := h.len
  have hset : ∀ x, (s.names.set cur (some (if eq then s.currentName else s.currentName + 1))).getD x none =
      if x = cur then some (if eq then s.currentName else s.currentName + 1) else s.names.getD x none :=
    fun x => getD_set _ _ _ _ (by omega)
  have hne : eq = true → ds ≠ [] := by
    intro he hds
    obtain ⟨i, e⟩ := heq.1 he
    have := e.lt_p
    rw [(h.first hds).1] at this
    omega
  have hstrict : eq = false → ds ≠ [] → keyS T s.previous < keyS T cur := by
    intro he hds
    obtain ⟨l1, -⟩ := h.last hds
    obtain ⟨p1, p2⟩ := h.lt _ l1
    have hle := hkey _ l1
    rcases List.le_iff_lt_or_eq.1 hle with hlt' | heq'
    · exact hlt'
    · exfalso
      have := heq.2 (keyS_eq p1 hlt (by rintro e; exact hnew (e ▸ l1)) (lms_iff.1 p2).2.1 heq')
      rw [he] at this; exact absurd this (by simp)
  have hmem : ∀ p ∈ ds, p ≠ cur := fun p hp e => hnew (e ▸ hp)
  have hcurrent : ∀ p ∈ ds, ∀ v, s.names.getD p none = some v → 1 ≤ v ∧ v ≤ s.currentName :=
    fun p hp v hv => (h.only p v (h.lt p hp).1 hv).2
  refine ⟨by simp [hlen], ?_, by simp [h.count], ?_, ?_, ?_, ?_, by simp, ?_, ?_, ?_, ?_, ?_⟩ <;> try dsimp only
  · rw [hset, if_neg (by omega)]; exact h.zero
  · intro p hp
    rw [List.mem_append, List.mem_singleton] at hp
    rcases hp with hp | rfl
    · exact h.lt p hp
    · exact ⟨hlt, hl⟩
  · intro p v hp hv
    rw [hset] at hv
    rw [List.mem_append, List.mem_singleton]
    split at hv
    · rename_i hpc
      simp only [Option.some.injEq] at hv
      refine ⟨Or.inr hpc, ?_⟩
      cases he : eq with
      | true =>
        rw [he] at hv
        simp only [if_true] at hv ⊢
        obtain ⟨l1, l2⟩ := h.last (hne he)
        have := hcurrent _ l1 _ l2
        omega
      | false =>
        rw [he] at hv
        simp only [Bool.false_eq_true, if_false] at hv ⊢
        omega
    · obtain ⟨g1, g2, g3⟩ := h.only p v hp hv
      refine ⟨Or.inl g1, g2, ?_⟩
      split <;> omega
  · intro p hp
    rw [List.mem_append, List.mem_singleton] at hp
    rw [hset]
    by_cases hpc : p = cur
    · rw [if_pos hpc]; exact ⟨_, rfl⟩
    · rw [if_neg hpc]
      exact h.named p (by rcases hp with hp | hp; exact hp; exact absurd hp hpc)
  · have := h.cur_le
    rw [List.length_append, List.length_singleton]
    split <;> omega
  · intro _
    rw [hset, if_pos rfl]
    exact ⟨by simp, rfl⟩
  · intro p hp
    rw [List.mem_append, List.mem_singleton] at hp
    rcases hp with hp | rfl
    · exact hkey p hp
    · exact List.le_refl _
  · intro p q v w hp hq hv hw hvw
    rw [hset] at hv hw
    rw [List.mem_append, List.mem_singleton] at hp hq
    by_cases hpc : p = cur
    · rw [if_pos hpc, Option.some.injEq] at hv
      exfalso
      by_cases hqc : q = cur
      · rw [if_pos hqc, Option.some.injEq] at hw
        omega
      · rw [if_neg hqc] at hw
        have := hcurrent q (by rcases hq with hq | hq; exact hq; exact absurd hq hqc) w hw
        split at hv <;> omega
    · rw [if_neg hpc] at hv
      replace hp : p ∈ ds := by rcases hp with hp | hp; exact hp; exact absurd hp hpc
      have hdne : ds ≠ [] := List.ne_nil_of_mem hp
      by_cases hqc : q = cur
      · rw [if_pos hqc, Option.some.injEq] at hw
        subst hqc
        obtain ⟨l1, l2⟩ := h.last hdne
        cases he : eq with
        | true =>
          rw [he] at hw
          simp only [if_true] at hw
          have h1 := h.less p s.previous v _ hp l1 hv l2 (by omega)
          exact list_lt_of_lt_of_le h1 (hkey _ l1)
        | false =>
          exact List.lt_of_le_of_lt (h.prev_le p hp) (hstrict he hdne)
      · rw [if_neg hqc] at hw
        exact h.less p q v w hp (by rcases hq with hq | hq; exact hq; exact absurd hq hqc) hv hw hvw
  · have half : ∀ p v, p ∈ ds → s.names.getD p none = some v →
        (if eq then s.currentName else s.currentName + 1) = v → EqBlocks T p cur := by
      intro p v hp hv hw
      have hdne : ds ≠ [] := List.ne_nil_of_mem hp
      obtain ⟨l1, l2⟩ := h.last hdne
      cases he : eq with
      | true =>
        rw [he] at hw
        simp only [if_true] at hw
        have hb := heq.1 he
        rcases h.same p s.previous v hp l1 hv (by rw [l2, hw]) with e | e
        · rw [e]; exact hb
        · exact e.trans hb
      | false =>
        rw [he] at hw
        simp only [Bool.false_eq_true, if_false] at hw
        have := hcurrent p hp v hv
        omega
    intro p q v hp hq hv hw
    rw [hset] at hv hw
    rw [List.mem_append, List.mem_singleton] at hp hq
    by_cases hpc : p = cur
    · by_cases hqc : q = cur
      · exact Or.inl (hpc.trans hqc.symm)
      · rw [if_pos hpc, Option.some.injEq] at hv
        rw [if_neg hqc] at hw
        subst hpc
        exact Or.inr (half q v (by rcases hq with hq | hq; exact hq; exact absurd hq hqc) hw hv).symm
    · rw [if_neg hpc] at hv
      replace hp : p ∈ ds := by rcases hp with hp | hp; exact hp; exact absurd hp hpc
      by_cases hqc : q = cur
      · rw [if_pos hqc, Option.some.injEq] at hw
        subst hqc
        exact Or.inr (half p v hp hv hw)
      · rw [if_neg hqc] at hw
        exact h.same p q v hp (by rcases hq with hq | hq; exact hq; exact absurd hq hqc) hv hw
  · intro hcl p q v hp hq hv hw
    have hcle := h.cur_le
    rw [List.length_append, List.length_singleton] at hcl
    have he : eq = false := by
      cases he : eq with
      | false => rfl
      | true => rw [he] at hcl; simp only [if_true] at hcl; omega
    rw [he] at hcl
    simp only [Bool.false_eq_true, if_false] at hcl
    rw [hset, he] at hv hw
    simp only [Bool.false_eq_true, if_false] at hv hw
    rw [List.mem_append, List.mem_singleton] at hp hq
    by_cases hpc : p = cur
    · by_cases hqc : q = cur
      · exact hpc.trans hqc.symm
      · rw [if_pos hpc, Option.some.injEq] at hv
        rw [if_neg hqc] at hw
        have := hcurrent q (by rcases hq with hq | hq; exact hq; exact absurd hq hqc) v hw
        omega
    · rw [if_neg hpc] at hv
      replace hp : p ∈ ds := by rcases hp with hp | hp; exact hp; exact absurd hp hpc
      by_cases hqc : q = cur
      · rw [if_pos hqc, Option.some.injEq] at hw
        have := hcurrent p hp v hv
        omega
      · rw [if_neg hqc] at hw
        exact h.distinct (by omega) p q v hp (by rcases hq with hq | hq; exact hq; exact absurd hq hqc) hv hw

theorem nameLoop_spec (T : List Nat) (l ds : List Nat) (s : NameState) (h : Named T ds s)
    (hl : ∀ p ∈ l, p < T.length) (hn : (ds ++ l).Nodup)
    (hkey : ∀ p ∈ ds, ∀ q ∈ l, keyS T p ≤ keyS T q) (hp : l.Pairwise fun p p' => keyS T p ≤ keyS T p') :
    ∃ s', nameLoop T (getSuffixTypes T) (l.map some) s = Res.ok s' ∧ Named T (ds ++ l.filter (lms T)) s' := by
  induction l generalizing ds s with
  | nil => exact ⟨s, rfl, by simpa using h⟩
  | cons cur l ih =>
    have hcl := hl cur (by simp)
    rw [List.pairwise_cons] at hp
    rw [List.map_cons, nameLoop, Res.ofOption_some, Res.ok_bind, isLms_eq T cur (by omega), Res.ok_bind]
    have hnd : cur ∉ ds := by
      intro hm
      rw [List.nodup_append] at hn
      exact hn.2.2 cur hm cur (by simp) rfl
    cases hlm : lms T cur with
    | true =>
      have hprev : s.previous ≤ T.length := by
        by_cases hds : ds = []
        · rw [(h.first hds).1]; exact Nat.le_refl _
        · have := (h.lt _ (h.last hds).1).1; omega
      obtain ⟨b, b1, b2⟩ := areEqual_spec T s.previous cur hprev (by omega)
      have hst := named_step h cur hcl hlm hnd (fun p hp => hkey p hp cur (by simp)) b b2
      simp only [if_true]
      rw [b1, Res.ok_bind]
      rw [setIdx, if_pos (by rw [h.len]; omega), Res.ok_bind]
      have hk : ∀ p ∈ ds ++ [cur], ∀ q ∈ l, keyS T p ≤ keyS T q := by
        intro p hpm q hq
        rw [List.mem_append, List.mem_singleton] at hpm
        rcases hpm with hpm | rfl
        · exact hkey p hpm q (by simp [hq])
        · exact hp.1 q hq
      obtain ⟨s', g1, g2⟩ := ih (ds ++ [cur]) _ hst (fun p hp => hl p (by simp [hp])) (by simpa using hn) hk hp.2
      refine ⟨s', g1, ?_⟩
      rw [List.filter_cons, if_pos hlm]
      simpa using g2
    | false =>
      simp only [Bool.false_eq_true, if_false]
      obtain ⟨s', g1, g2⟩ := ih ds s h (fun p hp => hl p (by simp [hp]))
        (hn.sublist (List.Sublist.append (List.Sublist.refl _) (List.sublist_cons_self _ _)))
        (fun p hpm q hq => hkey p hpm q (by simp [hq])) hp.2
      refine ⟨s', g1, ?_⟩
      rw [List.filter_cons, if_neg (by simp [hlm])]
      exact g2

end Ribzip2.Sais
