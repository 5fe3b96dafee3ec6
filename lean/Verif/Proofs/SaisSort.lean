import Verif.Proofs.SaisLoops
/- Both passes together: the array is complete, and sorted by every order that is compatible with
buckets, types and successors. -/
namespace Ribzip2.Sais
open Induce

/-- Result of both passes: every position once, in its bucket, the L positions first. -/
structure Full (T : List Nat) (sa : List (Option Nat)) : Prop where
  len : sa.length = T.length + 1
  zero : sa.getD 0 none = some T.length
  slotL : ∀ s, s ≤ T.length → (passL T).InRegion s → ∃ p, sa.getD s none = some p ∧ p < T.length ∧
    typ T p = false ∧ 1 + cntLt T (chr T p) ≤ s ∧ s ≤ cntLt T (chr T p + 1)
  slotS : ∀ s, s ≤ T.length → (passS T).InRegion (T.length - s) → ∃ p, sa.getD s none = some p ∧
    p < T.length ∧ typ T p = true ∧ 1 + cntLt T (chr T p) ≤ s ∧ s ≤ cntLt T (chr T p + 1)
  inj : ∀ s s' p, s ≤ T.length → s' ≤ T.length → sa.getD s none = some p → sa.getD s' none = some p → s = s'
  all : ∀ p, p ≤ T.length → ∃ s, s ≤ T.length ∧ sa.getD s none = some p

/-- An order compatible with buckets, types, and successors of positions of the type `t`. -/
structure Compat (T : List Nat) (t : Bool) (R : Nat → Nat → Prop) : Prop where
  first : ∀ p, p < T.length → R T.length p
  bucket : ∀ p p', p < T.length → p' < T.length → chr T p < chr T p' → R p p'
  types : ∀ p p', p < T.length → p' < T.length → chr T p = chr T p' → typ T p = false →
    typ T p' = true → R p p'
  next : ∀ p p', p < T.length → p' < T.length → chr T p = chr T p' → typ T p = t → typ T p' = t →
    R (p + 1) (p' + 1) → R p p'

theorem entryL {T : List Nat} {sa sa' : List (Option Nat)}
    (hd : (passL T).Done (viewL sa) (viewL sa')) (s : Nat) (hr : (passL T).InRegion s) :
    ∃ p c k, sa'.getD s none = some p ∧ p < T.length ∧ typ T p = false ∧ chr T p = c ∧
      k < (passL T).size c ∧ s = 1 + cntLt T c + k := by
  obtain ⟨c, k, hk, rfl⟩ := hr
  obtain ⟨p, y, h1, h2, h3, -⟩ := hd.entry c k hk
  simp only [passL, Bool.and_eq_true, decide_eq_true_eq, Bool.not_eq_true'] at h2
  exact ⟨p, c, k, h1, h2.1, h2.2, h3, hk, rfl⟩

/-- After the first pass, all entries (the seeds among them) are sorted. -/
theorem sortedL {T : List Nat} {sa sa' : List (Option Nat)} (h : Seeded T sa)
    (hd : (passL T).Done (viewL sa) (viewL sa')) (R : Nat → Nat → Prop) (hR : Compat T false R)
    (hseed : ∀ x x' p p', 1 ≤ x → x < x' → sa.getD x none = some p → sa.getD x' none = some p' →
      chr T p = chr T p' → R p p') :
    ∀ s' s p p', s < s' → s' ≤ T.length → sa'.getD s none = some p → sa'.getD s' none = some p' → R p p' := by
  have hzero : sa'.getD 0 none = some T.length := by
    have := hd.static 0 (by intro hr; obtain ⟨c, h3, -⟩ := (inRegionL_iff T 0).1 hr; omega)
    simp only [viewL] at this
    rw [this, h.zero]
  -- classification of the entries
  have hclass : ∀ s p, 1 ≤ s → s ≤ T.length → sa'.getD s none = some p →
      p < T.length ∧ 1 + cntLt T (chr T p) ≤ s ∧ s ≤ cntLt T (chr T p + 1) ∧
      ((typ T p = false ∧ s < 1 + cntLt T (chr T p) + (passL T).size (chr T p)) ∨
       (typ T p = true ∧ 1 + cntLt T (chr T p) + (passL T).size (chr T p) ≤ s ∧ sa.getD s none = some p)) := by
    intro s p h1 h2 hp
    by_cases hr : (passL T).InRegion s
    · obtain ⟨q, c, k, e1, e2, e3, e4, e5, e6⟩ := entryL hd s hr
      rw [hp] at e1
      simp only [Option.some.injEq] at e1
      subst e1; subst e4
      have := sizes_add T (chr T p)
      have := cntLt_succ T (chr T p)
      exact ⟨e2, by omega, by omega, Or.inl ⟨e3, by omega⟩⟩
    · have := hd.static s hr
      simp only [viewL] at this
      rw [this] at hp
      obtain ⟨g1, g2, g3, g4⟩ := h.seed s p h1 hp
      exact ⟨g1, by omega, g4, Or.inr ⟨(lms_iff.1 g2).2.1, g3, hp⟩⟩
  intro s'
  induction s' using Nat.strongRecOn with
  | _ s' ih =>
    intro s p p' hss hs' hp hp'
    obtain ⟨a1, a2, a3, a4⟩ := hclass s' p' (by omega) hs' hp'
    by_cases hs0 : s = 0
    · subst hs0
      rw [hzero] at hp
      simp only [Option.some.injEq] at hp
      subst hp
      exact hR.first p' a1
    · obtain ⟨b1, b2, b3, b4⟩ := hclass s p (by omega) (by omega) hp
      have hle : chr T p ≤ chr T p' := by
        by_contra hgt
        have := cntLt_mono T (show chr T p' + 1 ≤ chr T p by omega)
        omega
      rcases Nat.lt_or_eq_of_le hle with hlt | heq
      · exact hR.bucket p p' b1 a1 hlt
      · rcases b4 with ⟨b4, b5⟩ | ⟨b4, b5, b6⟩
        · rcases a4 with ⟨a4, a5⟩ | ⟨a4, a5, a6⟩
          · -- both L
            have hrs : (passL T).InRegion s := (inRegionL_iff T s).2 ⟨chr T p, b2, b5⟩
            have hrs' : (passL T).InRegion s' := (inRegionL_iff T s').2 ⟨chr T p', a2, a5⟩
            obtain ⟨c, k, hk, rfl⟩ := hrs
            obtain ⟨c', k', hk', rfl⟩ := hrs'
            obtain ⟨q, y, e1, e2, e3, e4, e5⟩ := hd.entry c k hk
            obtain ⟨q', y', f1, f2, f3, f4, f5⟩ := hd.entry c' k' hk'
            rw [viewL, hp] at e1
            rw [viewL, hp'] at f1
            simp only [Option.some.injEq] at e1 f1
            subst e1; subst f1
            have hcc : c = c' := by rw [← e3, ← f3]; exact heq
            subst hcc
            have hb1 := (okL h).bound c k hk
            have hb2 := (okL h).bound c k' hk'
            have hyy := hd.order c k k' p p' y y' (by omega) hk' hp hp' (by omega) (by omega) e5 f5
            refine hR.next p p' b1 a1 heq b4 a4 ?_
            simp only [passL] at hb2
            simp only [passL] at f4
            exact ih y' f4 y (p + 1) (p' + 1) hyy (by omega) e5 f5
          · exact hR.types p p' b1 a1 heq b4 a4
        · rcases a4 with ⟨a4, a5⟩ | ⟨a4, a5, a6⟩
          · rw [heq] at b5; omega
          · exact hseed s s' p p' (by omega) hss b6 a6 heq

/-- After both passes the array is complete. -/
theorem full_of_done {T : List Nat} {sa sa1 sa2 : List (Option Nat)} (h : Seeded T sa)
    (hd1 : (passL T).Done (viewL sa) (viewL sa1)) (hl2 : sa2.length = T.length + 1)
    (hd2 : (passS T).Done (viewS T.length sa1) (viewS T.length sa2)) :
    Full T sa2 ∧ ∀ s, s ≤ T.length → ¬ (passS T).InRegion (T.length - s) → sa2.getD s none = sa1.getD s none := by
  have hstat : ∀ s, s ≤ T.length → ¬ (passS T).InRegion (T.length - s) → sa2.getD s none = sa1.getD s none := by
    intro s hs hnr
    have := hd2.static _ hnr
    simp only [viewS] at this
    rw [if_pos (by omega), if_pos (by omega), show T.length - (T.length - s) = s by omega] at this
    exact this
  have hview : ∀ s, s ≤ T.length → viewS T.length sa2 (T.length - s) = sa2.getD s none := by
    intro s hs
    rw [viewS, if_pos (by omega), show T.length - (T.length - s) = s by omega]
  have hzero : sa1.getD 0 none = some T.length := by
    have := hd1.static 0 (by intro hr; obtain ⟨c, h3, -⟩ := (inRegionL_iff T 0).1 hr; omega)
    simp only [viewL] at this
    rw [this, h.zero]
  have hz2 : sa2.getD 0 none = some T.length := by
    rw [hstat 0 (by omega) (by rw [Nat.sub_zero]; exact zero_not_S T), hzero]
  refine ⟨⟨hl2, hz2, ?_, ?_, ?_, ?_⟩, hstat⟩
  · intro s hs hr
    obtain ⟨p, c, k, e1, e2, e3, e4, e5, e6⟩ := entryL hd1 s hr
    have := sizes_add T c
    have := cntLt_succ T c
    refine ⟨p, ?_, e2, e3, by rw [e4]; omega, by rw [e4]; omega⟩
    rw [hstat s hs (fun hr' => regions_disjoint T s hs hr hr'), e1]
  · intro s hs hr
    obtain ⟨c, k, hk, e⟩ := hr
    obtain ⟨p, y, h1, h2, h3, -⟩ := hd2.entry c k hk
    rw [← e, hview s hs] at h1
    simp only [passS, Bool.and_eq_true, decide_eq_true_eq] at h2
    have h3 : chr T p = c := h3
    have := sizes_add T c
    have := cntLt_succ T c
    have := cntLt_le T (c + 1)
    have e' : T.length - s = T.length - cntLt T (c + 1) + k := e
    exact ⟨p, h1, h2.1, h2.2, by rw [h3]; omega, by rw [h3]; omega⟩
  · intro s s' p hs hs' h1 h2
    have := hd2.inj (T.length - s) (T.length - s') p (by simp only [passS]; omega)
      (by simp only [passS]; omega) (by rw [hview s hs]; exact h1) (by rw [hview s' hs']; exact h2)
    omega
  · intro p hp
    rcases Nat.lt_or_eq_of_le hp with hlt | rfl
    · cases ht : typ T p with
      | true =>
        obtain ⟨k, hk, e⟩ := hd2.all p (by simp [passS, ht, hlt])
        have hk' : k < (passS T).size (chr T p) := hk
        have := sizes_add T (chr T p)
        have := cntLt_succ T (chr T p)
        have := cntLt_le T (chr T p + 1)
        refine ⟨cntLt T (chr T p + 1) - k, by omega, ?_⟩
        rw [← hview _ (by omega), ← e]
        congr 1
        simp only [passS]
        omega
      | false =>
        obtain ⟨k, hk, e⟩ := hd1.all p (by simp [passL, ht, hlt])
        have hk' : k < (passL T).size (chr T p) := hk
        have e' : sa1.getD (1 + cntLt T (chr T p) + k) none = some p := e
        have := sizes_add T (chr T p)
        have := cntLt_succ T (chr T p)
        have := cntLt_le T (chr T p + 1)
        refine ⟨1 + cntLt T (chr T p) + k, by omega, ?_⟩
        rw [hstat _ (by omega) ?_, e']
        intro hr
        exact regions_disjoint T _ (by omega) ((inRegionL_iff T _).2 ⟨chr T p, by omega, by omega⟩) hr
    · exact ⟨0, by omega, hz2⟩

/-- After both passes the array is sorted. -/
theorem sortedS {T : List Nat} {sa sa1 sa2 : List (Option Nat)} (h : Seeded T sa)
    (hd1 : (passL T).Done (viewL sa) (viewL sa1)) (hl2 : sa2.length = T.length + 1)
    (hd2 : (passS T).Done (viewS T.length sa1) (viewS T.length sa2))
    (RL RS : Nat → Nat → Prop) (hRL : Compat T false RL) (hRS : Compat T true RS)
    (hseed : ∀ x x' p p', 1 ≤ x → x < x' → sa.getD x none = some p → sa.getD x' none = some p' →
      chr T p = chr T p' → RL p p')
    (hLS : ∀ p p', p < T.length → p' < T.length → typ T p = false → typ T p' = false → RL p p' → RS p p') :
    ∀ s s' p p', s < s' → s' ≤ T.length → sa2.getD s none = some p → sa2.getD s' none = some p' → RS p p' := by
  obtain ⟨hfull, hstat⟩ := full_of_done h hd1 hl2 hd2
  have hL := sortedL h hd1 RL hRL hseed
  have hview : ∀ s, s ≤ T.length → viewS T.length sa2 (T.length - s) = sa2.getD s none := by
    intro s hs
    rw [viewS, if_pos (by omega), show T.length - (T.length - s) = s by omega]
  have key : ∀ m s s' p p', T.length - s = m → s < s' → s' ≤ T.length → sa2.getD s none = some p →
      sa2.getD s' none = some p' → RS p p' := by
    intro m
    induction m using Nat.strongRecOn with
    | _ m ih =>
      intro s s' p p' hm hss hs' hp hp'
      -- the entry at s'
      have hcl : ∀ s p, 1 ≤ s → s ≤ T.length → sa2.getD s none = some p →
          p < T.length ∧ 1 + cntLt T (chr T p) ≤ s ∧ s ≤ cntLt T (chr T p + 1) ∧
          ((typ T p = false ∧ (passL T).InRegion s) ∨ (typ T p = true ∧ (passS T).InRegion (T.length - s))) := by
        intro s p h1 h2 hp
        rcases slot_cases T s h1 h2 with hr | hr
        · obtain ⟨q, e1, e2, e3, e4, e5⟩ := hfull.slotL s h2 hr
          rw [hp] at e1
          simp only [Option.some.injEq] at e1
          subst e1
          exact ⟨e2, e4, e5, Or.inl ⟨e3, hr⟩⟩
        · obtain ⟨q, e1, e2, e3, e4, e5⟩ := hfull.slotS s h2 hr
          rw [hp] at e1
          simp only [Option.some.injEq] at e1
          subst e1
          exact ⟨e2, e4, e5, Or.inr ⟨e3, hr⟩⟩
      obtain ⟨a1, a2, a3, a4⟩ := hcl s' p' (by omega) hs' hp'
      by_cases hs0 : s = 0
      · subst hs0
        rw [hfull.zero] at hp
        simp only [Option.some.injEq] at hp
        subst hp
        exact hRS.first p' a1
      · obtain ⟨b1, b2, b3, b4⟩ := hcl s p (by omega) (by omega) hp
        have hle : chr T p ≤ chr T p' := by
          by_contra hgt
          have := cntLt_mono T (show chr T p' + 1 ≤ chr T p by omega)
          omega
        rcases Nat.lt_or_eq_of_le hle with hlt | heq
        · exact hRS.bucket p p' b1 a1 hlt
        · rcases b4 with ⟨b4, b5⟩ | ⟨b4, b5⟩
          · rcases a4 with ⟨a4, a5⟩ | ⟨a4, a5⟩
            · -- both L
              refine hLS p p' b1 a1 b4 a4 (hL s' s p p' hss hs' ?_ ?_)
              · rw [← hstat s (by omega) (fun hr => regions_disjoint T s (by omega) b5 hr)]; exact hp
              · rw [← hstat s' hs' (fun hr => regions_disjoint T s' hs' a5 hr)]; exact hp'
            · exact hRS.types p p' b1 a1 heq b4 a4
          · rcases a4 with ⟨a4, a5⟩ | ⟨a4, a5⟩
            · -- S before L in the same bucket: impossible
              exfalso
              obtain ⟨c, c1, c2⟩ := (inRegionS_iff T s (by omega)).1 b5
              obtain ⟨c', c3, c4⟩ := (inRegionL_iff T s').1 a5
              have := sizes_add T c'
              have := cntLt_succ T c'
              have e1 := bucket_unique T (show 1 + cntLt T c ≤ s by omega) c2 b2 b3
              have e2 := bucket_unique T c3 (show s' ≤ cntLt T (c' + 1) by omega) a2 a3
              rw [e1, heq] at c1
              rw [e2] at c4
              omega
            · -- both S
              obtain ⟨c, k, hk, e⟩ := b5
              obtain ⟨c', k', hk', e'⟩ := a5
              obtain ⟨q, y, e1, e2, e3, e4, e5⟩ := hd2.entry c k hk
              obtain ⟨q', y', f1, f2, f3, f4, f5⟩ := hd2.entry c' k' hk'
              rw [← e, hview s (by omega), hp] at e1
              rw [← e', hview s' hs', hp'] at f1
              simp only [Option.some.injEq] at e1 f1
              subst e1; subst f1
              have hcc : c = c' := by rw [← e3, ← f3]; exact heq
              subst hcc
              have hkk : k' < k := by omega
              have hyN : y < (passS T).N := by simp only [passS] at *; omega
              have hyN' : y' < (passS T).N := by simp only [passS] at *; omega
              have hyy := hd2.order c k' k p' p y' y hkk hk (by rw [← e', hview s' hs']; exact hp')
                (by rw [← e, hview s (by omega)]; exact hp) hyN' hyN f5 e5
              have hy : y ≤ T.length := by simp only [passS] at hyN; omega
              refine hRS.next p p' b1 a1 heq b4 a4 ?_
              refine ih y (by omega) (T.length - y) (T.length - y') (p + 1) (p' + 1) (by omega) (by omega)
                (by omega) ?_ ?_
              · rw [viewS, if_pos hy] at e5; exact e5
              · rw [viewS, if_pos (by omega)] at f5; exact f5
  intro s s' p p'
  exact key _ s s' p p' rfl

end Ribzip2.Sais
