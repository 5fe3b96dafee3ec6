import Verif.Proofs.SaisNames
/- The reduced problem. -/
namespace Ribzip2.Sais
open Induce

/-- The leftmost S positions in increasing order, then the end of the text. -/
def offs (T : List Nat) : List Nat := (List.range T.length).filter (lms T) ++ [T.length]

theorem offs_ne (T : List Nat) : 0 < (offs T).length := by simp [offs]

theorem filterMap_named (g : Nat → Option Nat) (l : List Nat) :
    l.filterMap (fun i => (g i).map fun v => (v, i)) =
      (l.filter fun i => (g i).isSome).map fun i => ((g i).getD 0, i) := by
  induction l with
  | nil => rfl
  | cons a l ih =>
    rw [List.filterMap_cons, List.filter_cons]
    cases h : g a with
    | none => simpa [h] using ih
    | some v => simpa [h] using ih

theorem zipIdx_eq (l : List (Option Nat)) :
    l.zipIdx = (List.range l.length).map fun i => (l.getD i none, i) := by
  apply List.ext_getElem (by simp)
  intro i h1 h2
  have : i < l.length := by simpa using h1
  simp [List.getD, List.getElem?_eq_getElem this]

theorem named_eq {T : List Nat} {ds : List Nat} {s : NameState} (h : Named T ds s)
    (hds : ∀ p, p ∈ ds ↔ p < T.length ∧ lms T p = true) :
    s.names.zipIdx.filterMap (fun p => p.1.map (fun name => (name, p.2))) =
      (offs T).map fun p => ((s.names.getD p none).getD 0, p) := by
  rw [zipIdx_eq, List.filterMap_map, h.len]
  have := filterMap_named (fun i => s.names.getD i none) (List.range (T.length + 1))
  rw [show ((fun p : Option Nat × Nat => p.1.map (fun name => (name, p.2))) ∘
    fun i => (s.names.getD i none, i)) = fun i => (s.names.getD i none).map fun v => (v, i) from rfl, this]
  congr 1
  rw [List.range_succ, List.filter_append, offs]
  congr 1
  · apply List.filter_congr
    intro p hp
    rw [List.mem_range] at hp
    cases hl : lms T p with
    | true =>
      obtain ⟨v, hv⟩ := h.named p ((hds p).2 ⟨hp, hl⟩)
      rw [hv]; rfl
    | false =>
      cases hv : s.names.getD p none with
      | none => rfl
      | some v =>
        have := ((hds p).1 (h.only p v hp hv).1).2
        rw [hl] at this; exact absurd this (by simp)
  · rw [List.filter_cons, h.zero]; rfl

/-- What the reduction provides. -/
structure Reduced (T : List Nat) (nm : Nat → Nat) (K : Nat) : Prop where
  last : nm T.length = 0
  pos : ∀ p, p < T.length → lms T p = true → 1 ≤ nm p ∧ nm p < K
  K_pos : 1 ≤ K
  K_le : K ≤ (offs T).length
  less : ∀ p q, p < T.length → lms T p = true → q < T.length → lms T q = true → nm p < nm q →
    T.drop p < T.drop q
  same : ∀ p q, p < T.length → lms T p = true → q < T.length → lms T q = true → nm p = nm q →
    p = q ∨ EqBlocks T p q
  distinct : K = (offs T).length → ∀ p q, p < T.length → lms T p = true → q < T.length → lms T q = true →
    nm p = nm q → p = q

theorem reduceProblem_spec (T : List Nat) (l : List Nat) (hperm : l.Perm (List.range (T.length + 1)))
    (hsort : l.Pairwise fun p p' => keyS T p ≤ keyS T p') :
    ∃ nm K, reduceProblem (l.map some) T (getSuffixTypes T) = Res.ok ⟨(offs T).map nm, offs T, K⟩ ∧
      Reduced T nm K := by
  have hnd : l.Nodup := hperm.nodup_iff.2 List.nodup_range
  have hmem : ∀ p, p ∈ l ↔ p < T.length + 1 := by
    intro p; rw [hperm.mem_iff, List.mem_range]
  obtain ⟨h0, l', rfl⟩ : ∃ h0 l', l = h0 :: l' := by
    cases l with
    | nil => have := (hmem T.length).2 (by omega); simp at this
    | cons a l => exact ⟨a, l, rfl⟩
  have hh : h0 = T.length := by
    by_contra hne
    have h1 := (hmem h0).1 (by simp)
    have h2 : T.length ∈ l' := by
      have := (hmem T.length).2 (by omega)
      rcases List.mem_cons.1 this with h | h
      · exact absurd h.symm hne
      · exact h
    have h3 := (List.pairwise_cons.1 hsort).1 _ h2
    rw [keyS_end (i := T.length) (Nat.le_refl _)] at h3
    obtain ⟨r, e⟩ := keyS_cons (T := T) (i := h0) (by omega)
    rw [e] at h3
    exact h3 (List.nil_lt_cons _ _)
  subst hh
  rw [List.nodup_cons] at hnd
  have hlt : ∀ p ∈ l', p < T.length := by
    intro p hp
    have := (hmem p).1 (by simp [hp])
    have : p ≠ T.length := fun e => hnd.1 (e ▸ hp)
    omega
  have hinit : Named T [] ⟨(List.replicate (T.length + 1) none).set T.length (some 0), 0, T.length, 1⟩ := by
    have hset : ∀ x, ((List.replicate (T.length + 1) none).set T.length (some 0)).getD x none =
        if x = T.length then some 0 else (List.replicate (T.length + 1) none).getD x none :=
      fun x => getD_set _ _ _ _ (by simp)
    refine ⟨by simp, ?_, rfl, by simp, ?_, by simp, by simp, by simp, by simp, by simp, by simp, by simp, by simp⟩
    · dsimp only; rw [hset, if_pos rfl]
    · intro p v hp hv
      dsimp only at hv
      rw [hset, if_neg (by omega)] at hv
      simp only [List.getD, List.getElem?_replicate] at hv
      split at hv <;> simp at hv
  obtain ⟨s, h1, h2⟩ := nameLoop_spec T l' [] _ hinit hlt (by simpa using hnd.2) (by simp)
    (List.pairwise_cons.1 hsort).2
  rw [List.nil_append] at h2
  have hds : ∀ p, p ∈ l'.filter (lms T) ↔ p < T.length ∧ lms T p = true := by
    intro p
    rw [List.mem_filter]
    constructor
    · rintro ⟨a, b⟩; exact ⟨hlt p a, b⟩
    · rintro ⟨a, b⟩
      refine ⟨?_, b⟩
      rcases List.mem_cons.1 ((hmem p).2 (by omega)) with h | h
      · omega
      · exact h
  have hoff : (offs T).length = (l'.filter (lms T)).length + 1 := by
    rw [offs, List.length_append, List.length_singleton]
    congr 1
    refine List.Perm.length_eq ?_
    refine (List.perm_ext_iff_of_nodup (List.nodup_range.filter _) (hnd.2.filter _)).2 ?_
    intro p
    rw [hds, List.mem_filter, List.mem_range]
  refine ⟨fun p => (s.names.getD p none).getD 0, s.currentName + 1, ?_, ?_⟩
  · rw [reduceProblem, List.map_cons]
    rw [show idx (some T.length :: l'.map some) 0 = Res.ok (some T.length) from rfl, Res.ok_bind,
      Res.ofOption_some, Res.ok_bind, setIdx, if_pos (by simp), Res.ok_bind, List.drop_succ_cons,
      List.drop_zero, h1, Res.ok_bind]
    dsimp only
    rw [named_eq h2 hds, subU, if_pos (by rw [List.length_map, h2.count, hoff]; exact Nat.le_refl _), Res.ok_bind,
      List.length_map, h2.count, hoff, Nat.sub_self, List.replicate_zero, List.append_nil, List.append_nil,
      List.map_map, List.map_map]
    congr 2
    exact List.map_id _
  · have hv : ∀ p, p < T.length → lms T p = true → ∃ v, s.names.getD p none = some v :=
      fun p a b => h2.named p ((hds p).2 ⟨a, b⟩)
    refine ⟨by rw [h2.zero]; rfl, ?_, by omega, by have := h2.cur_le; omega, ?_, ?_, ?_⟩
    · intro p a b
      obtain ⟨v, e⟩ := hv p a b
      have := h2.only p v a e
      rw [e]
      simp only [Option.getD_some]
      omega
    · intro p q a b c d hlt
      obtain ⟨v, e⟩ := hv p a b
      obtain ⟨w, f⟩ := hv q c d
      rw [e, f] at hlt
      exact suffix_of_keyS (h2.less p q v w ((hds p).2 ⟨a, b⟩) ((hds q).2 ⟨c, d⟩) e f hlt)
    · intro p q a b c d heq
      obtain ⟨v, e⟩ := hv p a b
      obtain ⟨w, f⟩ := hv q c d
      rw [e, f] at heq
      simp only [Option.getD_some] at heq
      subst heq
      exact h2.same p q v ((hds p).2 ⟨a, b⟩) ((hds q).2 ⟨c, d⟩) e f
    · intro hK p q a b c d heq
      obtain ⟨v, e⟩ := hv p a b
      obtain ⟨w, f⟩ := hv q c d
      rw [e, f] at heq
      simp only [Option.getD_some] at heq
      subst heq
      exact h2.distinct (by omega) p q v ((hds p).2 ⟨a, b⟩) ((hds q).2 ⟨c, d⟩) e f

/-! ### the order of the reduced suffixes -/

theorem offs_sorted (T : List Nat) : (offs T).Pairwise (· < ·) := by
  rw [offs, List.pairwise_append]
  refine ⟨List.pairwise_lt_range.filter _, by simp, ?_⟩
  intro a ha b hb
  rw [List.mem_filter, List.mem_range] at ha
  rw [List.mem_singleton] at hb
  omega

theorem offs_last (T : List Nat) {j : Nat} (h : j + 1 = (offs T).length) : (offs T)[j]? = some T.length := by
  rw [offs] at h ⊢
  rw [List.length_append, List.length_singleton] at h
  rw [List.getElem?_append_right (by omega)]
  rw [show j - ((List.range T.length).filter (lms T)).length = 0 by omega]
  rfl

theorem offs_lms (T : List Nat) {j : Nat} (h : j + 1 < (offs T).length) :
    ∃ p, (offs T)[j]? = some p ∧ p < T.length ∧ lms T p = true := by
  have h' := h
  rw [offs, List.length_append, List.length_singleton] at h'
  have hj : j < ((List.range T.length).filter (lms T)).length := by omega
  refine ⟨((List.range T.length).filter (lms T))[j], ?_, ?_⟩
  · rw [offs, List.getElem?_append_left hj, List.getElem?_eq_getElem hj]
  · have := List.getElem_mem hj
    rw [List.mem_filter, List.mem_range] at this
    exact this

theorem offs_index (T : List Nat) {p : Nat} (hp : p < T.length) (hl : lms T p = true) :
    ∃ j, j + 1 < (offs T).length ∧ (offs T)[j]? = some p := by
  have : p ∈ (List.range T.length).filter (lms T) := by
    rw [List.mem_filter, List.mem_range]; exact ⟨hp, hl⟩
  obtain ⟨j, hj, e⟩ := List.mem_iff_getElem.1 this
  refine ⟨j, by rw [offs, List.length_append, List.length_singleton]; omega, ?_⟩
  rw [offs, List.getElem?_append_left hj, List.getElem?_eq_getElem hj, e]

theorem offs_mono (T : List Nat) {i j p q : Nat} (hi : (offs T)[i]? = some p) (hj : (offs T)[j]? = some q) :
    i < j ↔ p < q := by
  have hs := offs_sorted T
  rw [List.pairwise_iff_getElem] at hs
  have hi' := (List.getElem?_eq_some_iff.1 hi)
  have hj' := (List.getElem?_eq_some_iff.1 hj)
  obtain ⟨a, rfl⟩ := hi'
  obtain ⟨b, rfl⟩ := hj'
  constructor
  · exact hs i j a b
  · intro h
    by_contra hn
    rcases Nat.lt_or_eq_of_le (Nat.le_of_not_lt hn) with h' | h'
    · have := hs j i b a h'; omega
    · subst h'; omega

/-- The position in the next block is the next offset. -/
theorem offs_next (T : List Nat) {j p i : Nat} (hj : j + 1 < (offs T).length) (hp : (offs T)[j]? = some p)
    (h1 : 1 ≤ i) (h2 : p + i < T.length) (h3 : lms T (p + i) = true)
    (h4 : ∀ k, 1 ≤ k → k < i → lms T (p + k) = false) :
    (offs T)[j + 1]? = some (p + i) ∧ j + 2 < (offs T).length := by
  obtain ⟨t, t1, t2⟩ := offs_index T h2 h3
  have hjt := (offs_mono T hp t2).2 (by omega)
  have : t = j + 1 := by
    by_contra hne
    have hlt : j + 1 < t := by omega
    obtain ⟨q, q1, q2, q3⟩ := offs_lms T (j := j + 1) (by omega)
    have a1 := (offs_mono T hp q1).1 (by omega)
    have a2 := (offs_mono T q1 t2).1 hlt
    have := h4 (q - p) (by omega) (by omega)
    rw [show p + (q - p) = q by omega, q3] at this
    exact absurd this (by simp)
  subst this
  exact ⟨t2, by omega⟩

theorem map_drop_cons {T : List Nat} {nm : Nat → Nat} {j p : Nat} (h : (offs T)[j]? = some p) :
    ((offs T).map nm).drop j = nm p :: ((offs T).map nm).drop (j + 1) := by
  obtain ⟨hj, e⟩ := List.getElem?_eq_some_iff.1 h
  rw [List.drop_eq_getElem_cons (by simpa using hj)]
  simp [e]

theorem reduced_order {T : List Nat} {nm : Nat → Nat} {K : Nat} (h : Reduced T nm K) {j j' p p' : Nat}
    (hj : (offs T)[j]? = some p) (hj' : (offs T)[j']? = some p')
    (hlt : ((offs T).map nm).drop j < ((offs T).map nm).drop j') : T.drop p < T.drop p' := by
  induction hm : (offs T).length - j generalizing j j' p p' with
  | zero =>
    have := (List.getElem?_eq_some_iff.1 hj).1
    omega
  | succ m ih =>
    have hjl := (List.getElem?_eq_some_iff.1 hj).1
    have hjl' := (List.getElem?_eq_some_iff.1 hj').1
    rw [map_drop_cons hj, map_drop_cons hj', List.cons_lt_cons_iff] at hlt
    by_cases e' : j' + 1 = (offs T).length
    · have hp' : p' = T.length := by
        have := offs_last T e'
        rw [hj'] at this; simpa using this
      subst hp'
      rw [h.last] at hlt
      rcases hlt with hlt | hlt
      · omega
      · rw [List.drop_eq_nil_of_le (i := j' + 1) (by rw [List.length_map]; omega)] at hlt
        exact absurd hlt.2 (List.not_lt_nil _)
    · obtain ⟨q', q1, q2, q3⟩ := offs_lms T (j := j') (by omega)
      rw [hj', Option.some.injEq] at q1
      subst q1
      by_cases e : j + 1 = (offs T).length
      · have hp : p = T.length := by
          have := offs_last T e
          rw [hj] at this; simpa using this
        subst hp
        exact suffix_lt_end (Nat.le_refl _) q2
      · obtain ⟨q, r1, r2, r3⟩ := offs_lms T (j := j) (by omega)
        rw [hj, Option.some.injEq] at r1
        subst r1
        rcases hlt with hlt | ⟨heq, hlt⟩
        · exact h.less p p' r2 r3 q2 q3 hlt
        · rcases h.same p p' r2 r3 q2 q3 heq with hpp | ⟨i, hi⟩
          · exfalso
            have hjj : j = j' := by
              have a := offs_mono T hj hj'
              have b := offs_mono T hj' hj
              omega
            subst hjj
            exact List.lt_irrefl _ hlt
          · obtain ⟨n1, -⟩ := offs_next T (by omega) hj hi.pos hi.lt_p hi.lms_p hi.none_p
            obtain ⟨n2, -⟩ := offs_next T (by omega) hj' hi.pos hi.lt_q hi.lms_q hi.none_q
            rw [suffix_lt_skip i (by have := hi.lt_p; omega) (by have := hi.lt_q; omega) hi.chars]
            exact ih n1 n2 hlt (by omega)

end Ribzip2.Sais
