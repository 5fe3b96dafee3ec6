import Verif.Proofs.SaisKeys
/- The two rounds of induced sorting. -/
namespace Ribzip2.Sais
open Induce

theorem array_of_full {T : List Nat} {sa : List (Option Nat)} (h : Full T sa) (R : Nat → Nat → Prop)
    (hR : ∀ s s' p p', s < s' → s' ≤ T.length → sa.getD s none = some p → sa.getD s' none = some p' → R p p') :
    ∃ l : List Nat, sa = l.map some ∧ l.Perm (List.range (T.length + 1)) ∧ l.Pairwise R := by
  have hsome : ∀ s, s ≤ T.length → ∃ p, sa.getD s none = some p ∧ p ≤ T.length := by
    intro s hs
    by_cases h0 : s = 0
    · subst h0; exact ⟨_, h.zero, Nat.le_refl _⟩
    · rcases slot_cases T s (by omega) hs with hr | hr
      · obtain ⟨p, e1, e2, -⟩ := h.slotL s hs hr
        exact ⟨p, e1, by omega⟩
      · obtain ⟨p, e1, e2, -⟩ := h.slotS s hs hr
        exact ⟨p, e1, by omega⟩
  have hlen := h.len
  refine ⟨sa.map fun e => e.getD 0, ?_, ?_, ?_⟩
  · rw [List.map_map]
    apply List.ext_getElem (by simp)
    intro i h1 h2
    obtain ⟨p, e, -⟩ := hsome i (by omega)
    rw [List.getD, List.getElem?_eq_getElem h1] at e
    simp at e
    simp [e]
  · have hnd : (sa.map fun e => e.getD 0).Nodup := by
      rw [List.nodup_iff_pairwise_ne, List.pairwise_iff_getElem]
      intro i j hi hj hij
      rw [List.length_map] at hi hj
      obtain ⟨p, e, -⟩ := hsome i (by omega)
      obtain ⟨p', e', -⟩ := hsome j (by omega)
      rw [List.getElem_map, List.getElem_map]
      intro hpp
      have e1 := e
      have e1' := e'
      rw [List.getD, List.getElem?_eq_getElem hi] at e1
      rw [List.getD, List.getElem?_eq_getElem hj] at e1'
      simp at e1 e1'
      rw [e1, e1'] at hpp
      simp at hpp
      subst hpp
      have := h.inj i j p (by omega) (by omega) e e'
      omega
    refine (List.perm_ext_iff_of_nodup hnd List.nodup_range).2 ?_
    intro p
    rw [List.mem_range, List.mem_map]
    constructor
    · rintro ⟨e, he, rfl⟩
      obtain ⟨i, hi, rfl⟩ := List.mem_iff_getElem.1 he
      obtain ⟨p, e, hp⟩ := hsome i (by omega)
      rw [List.getD, List.getElem?_eq_getElem hi] at e
      simp at e
      rw [e]; simp; omega
    · intro hp
      obtain ⟨s, hs, e⟩ := h.all p (by omega)
      have hl : s < sa.length := by omega
      rw [List.getD, List.getElem?_eq_getElem hl] at e
      simp at e
      exact ⟨sa[s], List.getElem_mem hl, by rw [e]; rfl⟩
  · rw [List.pairwise_iff_getElem]
    intro i j hi hj hij
    rw [List.length_map] at hi hj
    obtain ⟨p, e, -⟩ := hsome i (by omega)
    obtain ⟨p', e', -⟩ := hsome j (by omega)
    have := hR i j p p' hij (by omega) e e'
    rw [List.getElem_map, List.getElem_map]
    rw [List.getD, List.getElem?_eq_getElem hi] at e
    rw [List.getD, List.getElem?_eq_getElem hj] at e'
    simp at e e'
    rw [e, e']; exact this

/-- Both passes on seeds. -/
theorem round {T : List Nat} {K : Nat} {sizes : List Nat} (hB : Buckets T K sizes)
    {sa : List (Option Nat)} (h : Seeded T sa)
    (RL RS : Nat → Nat → Prop) (hRL : Compat T false RL) (hRS : Compat T true RS)
    (hseed : ∀ x x' p p', 1 ≤ x → x < x' → sa.getD x none = some p → sa.getD x' none = some p' →
      chr T p = chr T p' → RL p p')
    (hLS : ∀ p p', p < T.length → p' < T.length → typ T p = false → typ T p' = false → RL p p' → RS p p') :
    ∃ l : List Nat, (inductionSortL sa T (getSuffixTypes T) sizes >>= fun sa1 =>
        inductionSortS sa1 T (getSuffixTypes T) sizes) = Res.ok (l.map some) ∧
      l.Perm (List.range (T.length + 1)) ∧ l.Pairwise RS := by
  obtain ⟨sa1, h1, h2, h3, h4⟩ := passL_spec hB h
  obtain ⟨sa2, g1, g2, g3, g4⟩ := passS_spec hB h h2 h3 h4
  obtain ⟨hf, -⟩ := full_of_done h h4 g2 g4
  obtain ⟨l, rfl, l2, l3⟩ := array_of_full hf RS (sortedS h h4 g2 g4 RL RS hRL hRS hseed hLS)
  exact ⟨l, by rw [h1, Res.ok_bind, g1], l2, l3⟩

theorem compat_suffix (T : List Nat) (t : Bool) : Compat T t fun p p' => T.drop p < T.drop p' := by
  refine ⟨?_, ?_, ?_, ?_⟩
  · intro p hp; exact suffix_lt_end (Nat.le_refl _) hp
  · intro p p' hp hp' hc; exact suffix_lt_of_chr hp hp' hc
  · intro p p' hp hp' hc ht ht'; exact suffix_L_lt_S hp hp' hc ht ht'
  · intro p p' hp hp' hc _ _ h; exact (suffix_lt_iff hp hp' hc).2 h

theorem round1 {T : List Nat} {K : Nat} {sizes : List Nat} (hB : Buckets T K sizes) :
    ∃ l : List Nat, (identifyLms T (getSuffixTypes T) sizes >>= fun sa =>
        inductionSortL sa T (getSuffixTypes T) sizes >>= fun sa1 =>
        inductionSortS sa1 T (getSuffixTypes T) sizes) = Res.ok (l.map some) ∧
      l.Perm (List.range (T.length + 1)) ∧ l.Pairwise fun p p' => keyS T p ≤ keyS T p' := by
  obtain ⟨sa, h1, h2⟩ := identifyLms_spec hB
  rw [h1, Res.ok_bind]
  refine round hB h2 _ _ (compat_keyL T) (compat_keyS T) ?_ ?_
  · intro x x' p p' hx hxx hp hp' hc
    obtain ⟨a1, a2, -⟩ := h2.seed x p hx hp
    obtain ⟨b1, b2, -⟩ := h2.seed x' p' (by omega) hp'
    rw [keyL_S a1 (lms_iff.1 a2).2.1, keyL_S b1 (lms_iff.1 b2).2.1, hc]
    exact List.le_refl _
  · intro p p' hp hp' ht ht' h
    rw [keyS_L hp ht, keyS_L hp' ht']
    exact h

theorem round2 {T : List Nat} {K : Nat} {sizes : List Nat} (hB : Buckets T K sizes)
    (summary : List (Option Nat)) (offsets qs : List Nat) (hlen : summary.length - 2 = qs.length)
    (h : ∀ i q, qs[i]? = some q → ∃ r, summary[i + 2]? = some (some r) ∧ offsets[r]? = some q)
    (hn : qs.Nodup) (hl : ∀ p, p ∈ qs ↔ p < T.length ∧ lms T p = true)
    (hR : qs.Pairwise fun p p' => T.drop p < T.drop p') :
    ∃ l : List Nat, (placeLms T sizes summary offsets >>= fun sa =>
        inductionSortL sa T (getSuffixTypes T) sizes >>= fun sa1 =>
        inductionSortS sa1 T (getSuffixTypes T) sizes) = Res.ok (l.map some) ∧
      l.Perm (List.range (T.length + 1)) ∧ l.Pairwise fun p p' => T.drop p < T.drop p' := by
  obtain ⟨sa, h1, h2, h3⟩ := placeLms_spec hB summary offsets qs hlen h hn hl _ hR
  rw [h1, Res.ok_bind]
  exact round hB h2 _ _ (compat_suffix T false) (compat_suffix T true) h3 (fun _ _ _ _ _ _ h => h)

end Ribzip2.Sais
