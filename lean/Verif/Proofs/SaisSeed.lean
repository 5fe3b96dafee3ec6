import Verif.Proofs.SaisSort
/- Placing leftmost S positions at the bucket tails. -/
namespace Ribzip2.Sais
open Induce

/-- Placing the positions of a list one after the other at the bucket tails. -/
def placeAll (T : List Nat) : List Nat → List (Option Nat) → List Nat → Res (List (Option Nat))
  | [], sa, _ => Res.ok sa
  | p :: ps, sa, tails => do
    let (sa, tails) ← placeTail T p sa tails
    placeAll T ps sa tails

theorem identifyLoop_eq (T : List Nat) (i : Nat) (h : i ≤ T.length) (sa : List (Option Nat)) (tails : List Nat) :
    identifyLoop T (getSuffixTypes T) i sa tails =
      placeAll T ((List.range i).filter (lms T)).reverse sa tails := by
  induction i generalizing sa tails with
  | zero => rfl
  | succ i ih =>
    rw [identifyLoop, isLms_eq T i (by omega), Res.ok_bind, List.range_succ, List.filter_append,
      List.reverse_append]
    cases hl : lms T i with
    | true =>
      simp only [if_true, List.filter_cons, hl, List.filter_nil, List.reverse_cons, List.reverse_nil,
        List.nil_append, List.cons_append, placeAll]
      congr 1
      funext x
      exact ih (by omega) x.1 x.2
    | false =>
      simp only [Bool.false_eq_true, if_false, List.filter_cons, hl, List.filter_nil, List.reverse_nil,
        List.nil_append]
      exact ih (by omega) sa tails

theorem placeLoop_eq (T : List Nat) (summary : List (Option Nat)) (offsets qs : List Nat) (k : Nat)
    (hk : k ≤ qs.length)
    (h : ∀ i q, qs[i]? = some q → ∃ r, summary[i + 2]? = some (some r) ∧ offsets[r]? = some q)
    (sa : List (Option Nat)) (tails : List Nat) :
    placeLoop T summary offsets k sa tails = placeAll T (qs.take k).reverse sa tails := by
  induction k generalizing sa tails with
  | zero => simp [placeLoop, placeAll]
  | succ k ih =>
    have hk' : k < qs.length := by omega
    obtain ⟨r, h1, h2⟩ := h k qs[k] (List.getElem?_eq_getElem hk')
    rw [placeLoop, idx, h1, Res.ofOption_some, Res.ok_bind, Res.ofOption_some, Res.ok_bind, idx, h2,
      Res.ofOption_some, Res.ok_bind, List.take_add_one, List.getElem?_eq_getElem hk']
    simp only [Option.toList_some, List.reverse_append, List.reverse_cons, List.reverse_nil,
      List.nil_append, List.cons_append, placeAll]
    congr 1
    funext x
    exact ih (by omega) x.1 x.2

/-- Number of positions with the character `c` in a list. -/
def cntC (T : List Nat) (a : List Nat) (c : Nat) : Nat := a.countP fun p => chr T p == c

/-- The positions of `ds` have been placed. -/
structure Placed (T : List Nat) (ds : List Nat) (sa : List (Option Nat)) : Prop where
  len : sa.length = T.length + 1
  zero : sa.getD 0 none = some T.length
  fwd : ∀ x p, 1 ≤ x → sa.getD x none = some p → ∃ a b, ds = a ++ p :: b ∧
    x = cntLt T (chr T p + 1) - cntC T a (chr T p)
  bwd : ∀ a p b, ds = a ++ p :: b → sa.getD (cntLt T (chr T p + 1) - cntC T a (chr T p)) none = some p

theorem cntC_le (T : List Nat) (ds : List Nat) (hn : ds.Nodup)
    (hl : ∀ p ∈ ds, p < T.length ∧ typ T p = true) (c : Nat) : cntC T ds c ≤ (passS T).size c := by
  rw [cntC, List.countP_eq_length_filter, Pass.size]
  refine (List.subperm_of_subset (hn.filter _) ?_).length_le
  intro p hp
  rw [List.mem_filter] at hp
  obtain ⟨h1, h2⟩ := hl p hp.1
  unfold Pass.actives passS
  rw [List.mem_filter, List.mem_range]
  refine ⟨h1, ?_⟩
  simp [h1, h2, beq_iff_eq.1 hp.2]

theorem cntC_split_lt (T : List Nat) (a b : List Nat) (p : Nat) (hn : (a ++ p :: b).Nodup)
    (hl : ∀ q ∈ a ++ p :: b, q < T.length ∧ typ T q = true) :
    cntC T a (chr T p) < (passS T).size (chr T p) := by
  have h := cntC_le T (a ++ p :: b) hn hl (chr T p)
  simp only [cntC, List.countP_append, List.countP_cons, beq_self_eq_true, if_true] at *
  omega

theorem getD_set (sa : List (Option Nat)) (t x : Nat) (v : Option Nat) (ht : t < sa.length) :
    (sa.set t v).getD x none = if x = t then v else sa.getD x none := by
  simp only [List.getD, List.getElem?_set]
  by_cases h : t = x
  · subst h; simp [ht]
  · rw [if_neg h, if_neg (fun e => h e.symm)]

theorem placeAll_spec (T : List Nat) (K : Nat) (hK : ∀ x ∈ T, x < K) (ps ds : List Nat)
    (sa : List (Option Nat)) (tails : List Nat) (hn : (ds ++ ps).Nodup)
    (hl : ∀ p ∈ ds ++ ps, p < T.length ∧ typ T p = true) (hp : Placed T ds sa) (htl : tails.length = K)
    (htails : ∀ c, c < K → tails[c]? = some (cntLt T (c + 1) - cntC T ds c)) :
    ∃ sa', placeAll T ps sa tails = Res.ok sa' ∧ Placed T (ds ++ ps) sa' := by
  induction ps generalizing ds sa tails with
  | nil => exact ⟨sa, rfl, by simpa using hp⟩
  | cons p ps ih =>
    have hpl := hl p (by simp)
    have hc : chr T p < K := hK _ (chr_mem hpl.1)
    have hroom := cntC_split_lt T ds ps p hn hl
    have hsz := sizes_add T (chr T p)
    have hcs := cntLt_succ T (chr T p)
    have hcl := cntLt_le T (chr T p + 1)
    have hn' : (ds ++ [p]).Nodup := by
      rw [show ds ++ p :: ps = (ds ++ [p]) ++ ps by simp] at hn
      exact hn.of_append_left
    have hl' : ∀ q ∈ ds ++ [p], q < T.length ∧ typ T q = true := by
      intro q hq
      refine hl q ?_
      simp at hq ⊢
      rcases hq with h | h
      · exact Or.inl h
      · exact Or.inr (Or.inl h)
    have e1 : idx tails (chr T p) = Res.ok (cntLt T (chr T p + 1) - cntC T ds (chr T p)) := by
      rw [idx, htails _ hc, Res.ofOption_some]
    have hlen := hp.len
    rw [placeAll, placeTail, idx_chr T p hpl.1, Res.ok_bind, e1, Res.ok_bind, setIdx,
      if_pos (by rw [hlen]; omega), Res.ok_bind, subU, if_pos (by omega), Res.ok_bind, setIdx,
      if_pos (by rw [htl]; exact hc), Res.ok_bind]
    simp only [Res.pure_eq, Res.ok_bind]
    have htlt : cntLt T (chr T p + 1) - cntC T ds (chr T p) < sa.length := by rw [hlen]; omega
    have hP : Placed T (ds ++ [p]) (sa.set (cntLt T (chr T p + 1) - cntC T ds (chr T p)) (some p)) := by
      refine ⟨by rw [List.length_set]; exact hlen, ?_, ?_, ?_⟩
      · rw [getD_set _ _ _ _ htlt, if_neg (by omega)]
        exact hp.zero
      · intro x q hx hq
        rw [getD_set _ _ _ _ htlt] at hq
        split at hq
        · rename_i hxt
          simp only [Option.some.injEq] at hq
          subst hq
          exact ⟨ds, [], rfl, hxt⟩
        · obtain ⟨a, b, h1, h2⟩ := hp.fwd x q hx hq
          exact ⟨a, b ++ [p], by rw [h1]; simp, h2⟩
      · intro a q b hab
        rw [getD_set _ _ _ _ htlt]
        rcases List.eq_nil_or_concat b with rfl | ⟨b', z, rfl⟩
        · have := List.append_inj' hab rfl
          obtain ⟨h1, h2⟩ := this
          simp only [List.cons.injEq, and_true] at h2
          subst h1; subst h2
          rw [if_pos rfl]
        · have hab' : ds ++ [p] = (a ++ q :: b') ++ [z] := by rw [hab]; simp
          obtain ⟨h1, h2⟩ := List.append_inj' hab' rfl
          simp only [List.cons.injEq, and_true] at h2
          subst h2
          rw [if_neg ?_]
          · exact hp.bwd a q b' h1
          · intro e
            have hq1 := cntC_split_lt T a (b' ++ [p]) q (by rw [h1] at hn'; simpa using hn')
              (by rw [h1] at hl'; simpa using hl')
            have hszq := sizes_add T (chr T q)
            have hcsq := cntLt_succ T (chr T q)
            by_cases hcq : chr T q = chr T p
            · have : cntC T ds (chr T p) = cntC T a (chr T p) + (1 + cntC T b' (chr T p)) := by
                rw [h1]
                simp only [cntC, List.countP_append, List.countP_cons, beq_iff_eq, hcq, if_true]
                omega
              rw [hcq] at e hq1
              omega
            · refine hcq (bucket_unique T (x := cntLt T (chr T q + 1) - cntC T a (chr T q))
                (by omega) (by omega) ?_ ?_)
              · rw [e]; omega
              · rw [e]; omega
    have hT : ∀ c, c < K → (tails.set (chr T p) (cntLt T (chr T p + 1) - cntC T ds (chr T p) - 1))[c]? =
        some (cntLt T (c + 1) - cntC T (ds ++ [p]) c) := by
      intro c hcK
      rw [List.getElem?_set]
      simp only [cntC, List.countP_append, List.countP_cons, List.countP_nil, beq_iff_eq]
      by_cases hcc : chr T p = c
      · subst hcc
        rw [if_pos rfl, if_pos (by omega), if_pos rfl]
        congr 1
      · rw [if_neg hcc, if_neg hcc, htails c hcK]; rfl
    obtain ⟨sa', g1, g2⟩ := ih (ds ++ [p]) (sa.set (cntLt T (chr T p + 1) - cntC T ds (chr T p)) (some p))
      (tails.set (chr T p) (cntLt T (chr T p + 1) - cntC T ds (chr T p) - 1)) (by simpa using hn)
      (by simpa using hl) hP (by rw [List.length_set]; exact htl) hT
    exact ⟨sa', g1, by simpa using g2⟩

/-- Placing all leftmost S positions, in any order. -/
theorem seed_spec {T : List Nat} {K : Nat} {sizes : List Nat} (hB : Buckets T K sizes) (ps : List Nat)
    (hn : ps.Nodup) (hl : ∀ p, p ∈ ps ↔ p < T.length ∧ lms T p = true) :
    ∃ sa, (setIdx (List.replicate (T.length + 1) none) 0 (some T.length) >>= fun sa =>
        placeAll T ps sa (bucketTailsFrom 1 sizes)) = Res.ok sa ∧ Seeded T sa ∧
      ∀ x x' p p', 1 ≤ x → x < x' → sa.getD x none = some p → sa.getD x' none = some p' →
        chr T p = chr T p' → ∃ a b c, ps = a ++ p' :: b ++ p :: c := by
  rw [setIdx, if_pos (by simp), Res.ok_bind]
  have hl' : ∀ p ∈ ps, p < T.length ∧ typ T p = true :=
    fun p hp => ⟨((hl p).1 hp).1, (lms_iff.1 ((hl p).1 hp).2).2.1⟩
  obtain ⟨sa, h1, h2⟩ := placeAll_spec T K hB.chr_lt ps []
    ((List.replicate (T.length + 1) none).set 0 (some T.length)) (bucketTailsFrom 1 sizes)
    (by simpa using hn) (by simpa using hl')
    (by
      refine ⟨by simp, by simp [List.getD], ?_, by simp⟩
      intro x p hx hp
      rw [getD_set _ _ _ _ (by simp), if_neg (by omega)] at hp
      simp only [List.getD, List.getElem?_replicate] at hp
      split at hp <;> simp at hp)
    hB.tails_len (by intro c hc; rw [hB.tail c hc]; simp [cntC])
  rw [List.nil_append] at h2
  have hslot : ∀ a p b, ps = a ++ p :: b → cntC T a (chr T p) < (passS T).size (chr T p) := by
    intro a p b e
    exact cntC_split_lt T a b p (by rw [← e]; exact hn) (by rw [← e]; exact hl')
  refine ⟨sa, h1, ⟨h2.len, h2.zero, ?_, ?_, ?_⟩, ?_⟩
  · intro x p hx hp
    obtain ⟨a, b, e1, e2⟩ := h2.fwd x p hx hp
    have hm := (hl p).1 (by rw [e1]; simp)
    have := hslot a p b e1
    have := sizes_add T (chr T p)
    have := cntLt_succ T (chr T p)
    exact ⟨hm.1, hm.2, by omega, by omega⟩
  · intro p hp1 hp2
    obtain ⟨a, b, e⟩ := List.append_of_mem ((hl p).2 ⟨hp1, hp2⟩)
    have := hslot a p b e
    have := sizes_add T (chr T p)
    have := cntLt_succ T (chr T p)
    have := cntLt_le T (chr T p + 1)
    exact ⟨_, by omega, by omega, h2.bwd a p b e⟩
  · intro x x' p hx hx'
    have hz : ∀ x, sa.getD x none = some p → x = 0 → p = T.length := by
      intro x hx e
      subst e
      rw [h2.zero] at hx
      simpa using hx.symm
    have hnz : ∀ x, sa.getD x none = some p → 1 ≤ x → p < T.length := by
      intro x hx h1
      obtain ⟨a, b, e1, -⟩ := h2.fwd x p h1 hx
      exact ((hl p).1 (by rw [e1]; simp)).1
    by_cases h0 : x = 0
    · by_cases h0' : x' = 0
      · omega
      · have := hz x hx h0
        have := hnz x' hx' (by omega)
        omega
    · by_cases h0' : x' = 0
      · have := hz x' hx' h0'
        have := hnz x hx (by omega)
        omega
      · obtain ⟨a, b, e1, e2⟩ := h2.fwd x p (by omega) hx
        obtain ⟨a', b', e1', e2'⟩ := h2.fwd x' p (by omega) hx'
        rw [e1] at hn e1'
        have ha : a = a' := by
          have hna : p ∉ a := by
            intro hm
            rw [List.nodup_append] at hn
            exact hn.2.2 p hm p (by simp) rfl
          have hna' : p ∉ a' := by
            intro hm
            rw [e1', List.nodup_append] at hn
            exact hn.2.2 p hm p (by simp) rfl
          rcases List.append_eq_append_iff.1 e1' with ⟨m, g1, g2⟩ | ⟨m, g1, g2⟩
          · cases m with
            | nil => simpa using g1.symm
            | cons z m =>
              simp only [List.cons_append, List.cons.injEq] at g2
              exact absurd (by rw [g1, ← g2.1]; simp) hna'
          · cases m with
            | nil => simpa using g1
            | cons z m =>
              simp only [List.cons_append, List.cons.injEq] at g2
              exact absurd (by rw [g1, ← g2.1]; simp) hna
        rw [e2, e2', ha]
  · intro x x' p p' hx hxx hp hp' hc
    obtain ⟨a, b, e1, e2⟩ := h2.fwd x p hx hp
    obtain ⟨a', b', e1', e2'⟩ := h2.fwd x' p' (by omega) hp'
    have s1 := hslot a p b e1
    have s2 := hslot a' p' b' e1'
    have := sizes_add T (chr T p)
    have := cntLt_succ T (chr T p)
    rw [hc] at e2 s1
    have hlt : cntC T a' (chr T p') < cntC T a (chr T p') := by omega
    rcases List.append_eq_append_iff.1 (e1.symm.trans e1') with ⟨m, g1, g2⟩ | ⟨m, g1, g2⟩
    · rw [g1] at hlt
      simp only [cntC, List.countP_append] at hlt
      omega
    · cases m with
      | nil =>
        rw [g1] at hlt
        simp [cntC] at hlt
      | cons z m =>
        simp only [List.cons_append, List.cons.injEq] at g2
        refine ⟨a', m, b, ?_⟩
        rw [e1, g1, ← g2.1]

theorem identifyLms_spec {T : List Nat} {K : Nat} {sizes : List Nat} (hB : Buckets T K sizes) :
    ∃ sa, identifyLms T (getSuffixTypes T) sizes = Res.ok sa ∧ Seeded T sa := by
  obtain ⟨sa, h1, h2, -⟩ := seed_spec hB ((List.range T.length).filter (lms T)).reverse
    ((List.nodup_reverse).2 (List.nodup_range.filter _)) (by intro p; simp)
  refine ⟨sa, ?_, h2⟩
  rw [identifyLms, ← h1]
  congr 1
  funext sa
  exact identifyLoop_eq T T.length (Nat.le_refl _) _ _

theorem placeLms_spec {T : List Nat} {K : Nat} {sizes : List Nat} (hB : Buckets T K sizes)
    (summary : List (Option Nat)) (offsets qs : List Nat) (hlen : summary.length - 2 = qs.length)
    (h : ∀ i q, qs[i]? = some q → ∃ r, summary[i + 2]? = some (some r) ∧ offsets[r]? = some q)
    (hn : qs.Nodup) (hl : ∀ p, p ∈ qs ↔ p < T.length ∧ lms T p = true)
    (R : Nat → Nat → Prop) (hR : qs.Pairwise R) :
    ∃ sa, placeLms T sizes summary offsets = Res.ok sa ∧ Seeded T sa ∧
      ∀ x x' p p', 1 ≤ x → x < x' → sa.getD x none = some p → sa.getD x' none = some p' →
        chr T p = chr T p' → R p p' := by
  obtain ⟨sa, h1, h2, h3⟩ := seed_spec hB qs.reverse (List.nodup_reverse.2 hn) (by simpa using hl)
  refine ⟨sa, ?_, h2, ?_⟩
  · rw [placeLms, ← h1, hlen]
    congr 1
    funext sa
    rw [placeLoop_eq T summary offsets qs qs.length (Nat.le_refl _) h, List.take_length]
  · intro x x' p p' hx hxx hp hp' hc
    obtain ⟨a, b, c, e⟩ := h3 x x' p p' hx hxx hp hp' hc
    have e' : qs = c.reverse ++ p :: (b.reverse ++ p' :: a.reverse) := by
      have := congrArg List.reverse e
      simpa using this
    rw [e', List.pairwise_append] at hR
    exact (List.pairwise_cons.1 hR.2.1).1 p' (by simp)

end Ribzip2.Sais
