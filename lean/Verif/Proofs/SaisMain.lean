import Verif.Proofs.SaisReduce
import Verif.Spec.Bwt
/- The suffix array construction is correct. -/
namespace Ribzip2.Sais
open Induce

/-- Suffix array of a text of numbers. -/
def IsSA (T : List Nat) (sa : List (Option Nat)) : Prop :=
  ∃ l : List Nat, sa = l.map some ∧ l.Perm (List.range (T.length + 1)) ∧
    l.Pairwise fun i j => T.drop i < T.drop j

theorem directLoop_spec (R : List Nat) (hlt : ∀ x ∈ R, x < R.length) (hnd : R.Nodup) (k i : Nat)
    (sa : List (Option Nat)) (hik : i + k = R.length) (hl : sa.length = R.length + 1) :
    ∃ sa', directLoop R k i sa = Res.ok sa' ∧ sa'.length = R.length + 1 ∧
      (∀ t, i ≤ t → t < R.length → sa'.getD (chr R t + 1) none = some t) ∧
      ∀ x, (∀ t, i ≤ t → t < R.length → x ≠ chr R t + 1) → sa'.getD x none = sa.getD x none := by
  induction k generalizing i sa with
  | zero => exact ⟨sa, rfl, hl, fun t h1 h2 => by omega, fun _ _ => rfl⟩
  | succ k ih =>
    have hi : i < R.length := by omega
    have hc : chr R i < R.length := hlt _ (chr_mem hi)
    rw [directLoop, idx_chr R i hi, Res.ok_bind, setIdx, if_pos (by omega), Res.ok_bind]
    obtain ⟨sa', h1, h2, h3, h4⟩ := ih (i + 1) (sa.set (chr R i + 1) (some i)) (by omega) (by simpa using hl)
    have hset : ∀ x, (sa.set (chr R i + 1) (some i)).getD x none =
        if x = chr R i + 1 then some i else sa.getD x none := fun x => getD_set _ _ _ _ (by omega)
    have hinj : ∀ t, i < t → t < R.length → chr R i ≠ chr R t := by
      intro t h5 h6
      have := List.pairwise_iff_getElem.1 (List.nodup_iff_pairwise_ne.1 hnd) i t hi h6 h5
      simpa [chr, List.getD, List.getElem?_eq_getElem hi, List.getElem?_eq_getElem h6] using this
    refine ⟨sa', h1, h2, ?_, ?_⟩
    · intro t h5 h6
      by_cases hti : t = i
      · subst hti
        rw [h4 _ ?_, hset, if_pos rfl]
        intro t' h7 h8 e
        exact hinj t' (by omega) h8 (by omega)
      · exact h3 t (by omega) h6
    · intro x hx
      rw [h4 x (fun t h5 h6 => hx t (by omega) h6), hset, if_neg (hx i (Nat.le_refl _) hi)]

theorem direct_spec (R : List Nat) (hlt : ∀ x ∈ R, x < R.length) (hnd : R.Nodup) :
    ∃ sa, directSuffixArray R = Res.ok sa ∧ IsSA R sa := by
  obtain ⟨sa, h1, h2, h3, h4⟩ := directLoop_spec R hlt hnd (R.length - 1) (if R.length = 0 then 0 else 1)
    ((List.replicate (R.length + 1) (some 0)).set 0 (some R.length)) (by split <;> omega) (by simp)
  have hset : ∀ x, ((List.replicate (R.length + 1) (some 0)).set 0 (some R.length)).getD x none =
        if x = 0 then some R.length else (List.replicate (R.length + 1) (some 0)).getD x none :=
      fun x => getD_set _ _ _ _ (by simp)
  have hperm : R.Perm (List.range R.length) := by
    refine (List.subperm_of_subset hnd ?_).perm_of_length_le (by simp)
    intro x hx
    rw [List.mem_range]; exact hlt x hx
  have hidx : ∀ v, v < R.length → R.idxOf v < R.length ∧ chr R (R.idxOf v) = v := by
    intro v hv
    have hm : v ∈ R := hperm.mem_iff.2 (List.mem_range.2 hv)
    have hl := List.idxOf_lt_length_of_mem hm
    refine ⟨hl, ?_⟩
    simp [chr, List.getD, List.getElem?_eq_getElem hl]
  refine ⟨sa, ?_, R.length :: (List.range R.length).map R.idxOf, ?_, ?_, ?_⟩
  · rw [directSuffixArray, setIdx, if_pos (by simp), Res.ok_bind]
    by_cases h0 : R.length = 0
    · rw [← h1, h0]; rfl
    · rw [if_neg h0] at h1
      exact h1
  · apply List.ext_getElem (by simp [h2])
    intro i hi hi'
    have hg : sa.getD i none = sa[i] := by rw [List.getD, List.getElem?_eq_getElem hi]; rfl
    rw [← hg]
    cases i with
    | zero =>
      rw [h4 0 (fun t _ _ => by omega), hset, if_pos rfl]
      simp
    | succ v =>
      have hv : v < R.length := by simp at hi'; exact hi'
      obtain ⟨a, b⟩ := hidx v hv
      simp only [List.map_cons, List.getElem_cons_succ, List.getElem_map, List.getElem_range]
      by_cases hz : R.idxOf v = 0
      · rw [h4 (v + 1) ?_, hset, if_neg (by omega), hz]
        · simp [List.getD, hv]
        · intro t t1 t2 e
          have hte : R.idxOf v = t := by
            have e2 : R[R.idxOf v] = R[t] := by
              have h5 : chr R (R.idxOf v) = chr R t := by omega
              simpa [chr, List.getD, List.getElem?_eq_getElem a, List.getElem?_eq_getElem t2] using h5
            exact (List.Nodup.getElem_inj_iff hnd).1 e2
          split at t1 <;> omega
      · have := h3 (R.idxOf v) (by split <;> omega) a
        rw [b] at this
        exact this
  · have hnd2 : ((List.range R.length).map R.idxOf).Nodup := by
      refine List.Nodup.map_on ?_ List.nodup_range
      intro x hx y hy e
      rw [List.mem_range] at hx hy
      rw [← (hidx x hx).2, ← (hidx y hy).2, e]
    rw [List.range_succ]
    refine (List.Perm.cons _ ?_).trans (List.perm_append_comm (l₁ := [R.length]) (l₂ := List.range R.length))
    refine (List.subperm_of_subset hnd2 ?_).perm_of_length_le (by simp)
    intro x hx
    rw [List.mem_map] at hx
    obtain ⟨v, hv, rfl⟩ := hx
    rw [List.mem_range] at hv
    exact List.mem_range.2 (hidx v hv).1
  · rw [List.pairwise_cons]
    constructor
    · intro x hx
      rw [List.mem_map] at hx
      obtain ⟨v, hv, rfl⟩ := hx
      rw [List.mem_range] at hv
      exact suffix_lt_end (Nat.le_refl _) (hidx v hv).1
    · rw [List.pairwise_map]
      refine List.Pairwise.imp_of_mem ?_ List.pairwise_lt_range
      intro a b ha hb hab
      rw [List.mem_range] at ha hb
      refine suffix_lt_of_chr (hidx a ha).1 (hidx b hb).1 ?_
      rw [(hidx a ha).2, (hidx b hb).2]; exact hab

/-- A smallest element of a sorted list is its head. -/
theorem head_of_min {R : Nat → Nat → Prop} (hasym : ∀ a b, R a b → R b a → False) {l : List Nat} {x : Nat}
    (hx : x ∈ l) (hmin : ∀ y ∈ l, y ≠ x → R x y) (hp : l.Pairwise R) : ∃ t, l = x :: t := by
  cases l with
  | nil => simp at hx
  | cons a t =>
    by_cases h : a = x
    · exact ⟨t, by rw [h]⟩
    · exfalso
      have hxt : x ∈ t := by
        rcases List.mem_cons.1 hx with h' | h'
        · exact absurd h'.symm h
        · exact h'
      exact hasym _ _ ((List.pairwise_cons.1 hp).1 x hxt) (hmin a (by simp) h)

theorem lt_asymm' (T : List Nat) (a b : Nat) (h1 : T.drop a < T.drop b) (h2 : T.drop b < T.drop a) : False :=
  List.lt_irrefl _ (List.lt_trans h1 h2)

/-- The second round after a correct suffix array of the reduced text. -/
theorem finish {T : List Nat} {K K' : Nat} {sizes : List Nat} (hB : Buckets T K sizes) {nm : Nat → Nat}
    (hr : Reduced T nm K') (summary : List (Option Nat)) (hs : IsSA ((offs T).map nm) summary) :
    ∃ l : List Nat, (placeLms T sizes summary (offs T) >>= fun sa =>
        inductionSortL sa T (getSuffixTypes T) sizes >>= fun sa1 =>
        inductionSortS sa1 T (getSuffixTypes T) sizes) = Res.ok (l.map some) ∧
      l.Perm (List.range (T.length + 1)) ∧ l.Pairwise fun p p' => T.drop p < T.drop p' := by
  obtain ⟨l, rfl, hperm, hsort⟩ := hs
  have hm0 := offs_ne T
  rw [List.length_map] at hperm
  have hmem : ∀ p, p ∈ l ↔ p < (offs T).length + 1 := by
    intro p; rw [hperm.mem_iff, List.mem_range]
  have hnd : l.Nodup := hperm.nodup_iff.2 List.nodup_range
  -- first entry
  obtain ⟨t, rfl⟩ := head_of_min (lt_asymm' ((offs T).map nm)) ((hmem (offs T).length).2 (by omega)) (by
    intro y hy hne
    have := (hmem y).1 hy
    exact suffix_lt_end (by simp) (by rw [List.length_map]; omega)) hsort
  rw [List.pairwise_cons] at hsort
  rw [List.nodup_cons] at hnd
  have hmem' : ∀ p, p ∈ t ↔ p < (offs T).length := by
    intro p
    constructor
    · intro hp
      have := (hmem p).1 (by simp [hp])
      have : p ≠ (offs T).length := fun e => hnd.1 (e ▸ hp)
      omega
    · intro hp
      rcases List.mem_cons.1 ((hmem p).2 (by omega)) with h | h
      · omega
      · exact h
  -- second entry
  obtain ⟨rs, rfl⟩ := head_of_min (lt_asymm' ((offs T).map nm)) ((hmem' ((offs T).length - 1)).2 (by omega)) (by
    intro y hy hne
    have hy' := (hmem' y).1 hy
    obtain ⟨p, p1, p2, p3⟩ := offs_lms T (j := y) (by omega)
    rw [map_drop_cons p1, map_drop_cons (offs_last T (j := (offs T).length - 1) (by omega)), hr.last,
      List.cons_lt_cons_iff]
    exact Or.inl (by have := (hr.pos p p2 p3).1; omega)) hsort.2
  rw [List.pairwise_cons] at hsort
  rw [List.nodup_cons] at hnd
  have hmem2 : ∀ p, p ∈ rs ↔ p + 1 < (offs T).length := by
    intro p
    constructor
    · intro hp
      have := (hmem' p).1 (by simp [hp])
      have : p ≠ (offs T).length - 1 := fun e => hnd.2.1 (e ▸ hp)
      omega
    · intro hp
      rcases List.mem_cons.1 ((hmem' p).2 (by omega)) with h | h
      · omega
      · exact h
  have hget : ∀ r ∈ rs, (offs T)[r]? = some ((offs T).getD r 0) ∧ (offs T).getD r 0 < T.length ∧
      lms T ((offs T).getD r 0) = true := by
    intro r hr'
    obtain ⟨p, p1, p2, p3⟩ := offs_lms T ((hmem2 r).1 hr')
    have : (offs T).getD r 0 = p := by rw [List.getD, p1]; rfl
    rw [this]
    exact ⟨p1, p2, p3⟩
  refine round2 hB _ (offs T) (rs.map fun r => (offs T).getD r 0) (by simp) ?_ ?_ ?_ ?_
  · intro i q hq
    rw [List.getElem?_map] at hq
    cases hri : rs[i]? with
    | none => rw [hri] at hq; simp at hq
    | some r =>
      rw [hri] at hq
      simp only [Option.map_some, Option.some.injEq] at hq
      subst hq
      refine ⟨r, by simp [hri], (hget r (List.mem_of_getElem? hri)).1⟩
  · refine List.Nodup.map_on ?_ hnd.2.2
    intro x hx y hy e
    have a := offs_mono T (hget x hx).1 (hget y hy).1
    have b := offs_mono T (hget y hy).1 (hget x hx).1
    omega
  · intro p
    rw [List.mem_map]
    constructor
    · rintro ⟨r, h1, rfl⟩
      exact (hget r h1).2
    · rintro ⟨h1, h2⟩
      obtain ⟨j, j1, j2⟩ := offs_index T h1 h2
      exact ⟨j, (hmem2 j).2 j1, by rw [List.getD, j2]; rfl⟩
  · rw [List.pairwise_map]
    refine List.Pairwise.imp_of_mem ?_ hsort.2.2
    intro a b ha hb hab
    exact reduced_order hr (hget a ha).1 (hget b hb).1 hab

theorem offs_lt (T : List Nat) (h : 2 ≤ (offs T).length) : (offs T).length < T.length := by
  have hsub : (List.range T.length).filter (lms T) ⊆ (List.range' 1 (T.length - 2)) := by
    intro p hp
    rw [List.mem_filter, List.mem_range] at hp
    obtain ⟨h1, h2, h3⟩ := lms_iff.1 hp.2
    have := (typ_S hp.1 h2).1
    rw [List.mem_range'_1]
    omega
  have hle := (List.subperm_of_subset (List.nodup_range.filter (lms T)) hsub).length_le
  rw [List.length_range'] at hle
  rw [offs, List.length_append, List.length_singleton] at h ⊢
  omega

/-- One level of the recursion. -/
theorem build_step (fuel : Nat) (T : List Nat) (K : Nat) (hK : ∀ x ∈ T, x < K)
    (ih : ∀ (R : List Nat) (K' : Nat), (∀ x ∈ R, x < K') → 2 ≤ R.length → R.length = (offs T).length →
      ∃ sa, buildSuffixArrayRec fuel R K' = Res.ok sa ∧ IsSA R sa) :
    ∃ sa, buildSuffixArrayRec (fuel + 1) T K = Res.ok sa ∧ IsSA T sa := by
  obtain ⟨sizes, hsz, hB⟩ := buckets_exist T K hK
  obtain ⟨l, r1, r2, r3⟩ := round1 hB
  obtain ⟨nm, K', q1, hr⟩ := reduceProblem_spec T l r2 r3
  have hsum : ∃ summary, (if K' = ((offs T).map nm).length then directSuffixArray ((offs T).map nm)
      else buildSuffixArrayRec fuel ((offs T).map nm) K') = Res.ok summary ∧
      IsSA ((offs T).map nm) summary := by
    have hval : ∀ x ∈ (offs T).map nm, x < K' := by
      intro x hx
      rw [List.mem_map] at hx
      obtain ⟨p, hp, rfl⟩ := hx
      rw [offs, List.mem_append, List.mem_filter, List.mem_range, List.mem_singleton] at hp
      rcases hp with hp | rfl
      · exact (hr.pos p hp.1 hp.2).2
      · have := hr.last; have := hr.K_pos; omega
    have hm0 := offs_ne T
    by_cases hd : K' = ((offs T).map nm).length
    · rw [if_pos hd]
      refine direct_spec _ (by intro x hx; rw [← hd]; exact hval x hx) ?_
      rw [List.length_map] at hd
      refine List.Nodup.map_on ?_ ((offs_sorted T).imp (fun h => Nat.ne_of_lt h))
      have hcase : ∀ x ∈ offs T, (x < T.length ∧ lms T x = true) ∨ x = T.length := by
        intro x hx
        rw [offs, List.mem_append, List.mem_filter, List.mem_range, List.mem_singleton] at hx
        exact hx
      intro x hx y hy e
      rcases hcase x hx with hx | hx <;> rcases hcase y hy with hy | hy
      · exact hr.distinct hd x y hx.1 hx.2 hy.1 hy.2 e
      · have := (hr.pos x hx.1 hx.2).1
        rw [hy, hr.last] at e; omega
      · have := (hr.pos y hy.1 hy.2).1
        rw [hx, hr.last] at e; omega
      · rw [hx, hy]
    · rw [if_neg hd]
      refine ih _ _ hval ?_ (List.length_map _)
      rw [List.length_map] at hd ⊢
      have := hr.K_le
      have := hr.K_pos
      omega
  obtain ⟨summary, s1, s2⟩ := hsum
  obtain ⟨l2, g1, g2, g3⟩ := finish hB hr summary s2
  refine ⟨_, ?_, l2, rfl, g2, g3⟩
  rw [buildSuffixArrayRec]
  dsimp only
  rw [hsz, Res.ok_bind]
  have hassoc : ∀ (k : List (Option Nat) → Res (List (Option Nat))),
      (identifyLms T (getSuffixTypes T) sizes >>= fun sa =>
        inductionSortL sa T (getSuffixTypes T) sizes >>= fun sa1 =>
        inductionSortS sa1 T (getSuffixTypes T) sizes >>= k) = k (l.map some) := by
    intro k
    rw [← Res.ok_bind (l.map some) k, ← r1]
    simp only [bind_assoc]
  rw [hassoc, q1, Res.ok_bind]
  dsimp only
  by_cases hd : K' = ((offs T).map nm).length
  · rw [if_pos hd] at s1 ⊢
    rw [s1, Res.ok_bind]
    exact g1
  · rw [if_neg hd] at s1 ⊢
    rw [s1, Res.ok_bind]
    exact g1

theorem build_spec (fuel : Nat) (T : List Nat) (K : Nat) (hK : ∀ x ∈ T, x < K) (hf : T.length < fuel) :
    ∃ sa, buildSuffixArrayRec fuel T K = Res.ok sa ∧ IsSA T sa := by
  induction fuel generalizing T K with
  | zero => omega
  | succ fuel ih =>
    refine build_step fuel T K hK fun R K' hR h2 hl => ih R K' hR ?_
    have := offs_lt T (by omega)
    omega

theorem unwrapAll_map (l : List Nat) : unwrapAll (l.map some) = Res.ok l := by
  induction l with
  | nil => rfl
  | cons a l ih => rw [List.map_cons, unwrapAll, Res.ofOption_some, Res.ok_bind, ih]; rfl

theorem map_toNat_lt (a b : List UInt8) : a.map UInt8.toNat < b.map UInt8.toNat ↔ a < b := by
  induction a generalizing b with
  | nil => cases b <;> simp
  | cons x a ih =>
    cases b with
    | nil => simp
    | cons y b =>
      rw [List.map_cons, List.map_cons, List.cons_lt_cons_iff, List.cons_lt_cons_iff, ih,
        UInt8.lt_iff_toNat_lt, UInt8.toNat_inj]

/-- lib/src/block/bwt/sais.rs computes the suffix array of every byte string. -/
theorem buildSuffixArray_spec (s : List UInt8) :
    ∃ sa, buildSuffixArray s = Res.ok sa ∧ Spec.IsSuffixArray s sa := by
  obtain ⟨_, h1, l, rfl, h2, h3⟩ := build_spec (s.length + 1) (s.map UInt8.toNat) 256 (by
    intro x hx
    rw [List.mem_map] at hx
    obtain ⟨b, -, rfl⟩ := hx
    exact UInt8.toNat_lt b) (by simp)
  refine ⟨l, by rw [buildSuffixArray, h1, Res.ok_bind, unwrapAll_map], by simpa using h2, ?_⟩
  refine h3.imp ?_
  intro i j h
  rw [← List.map_drop, ← List.map_drop, map_toNat_lt] at h
  exact h

end Ribzip2.Sais
