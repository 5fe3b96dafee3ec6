import Verif.Proofs.SaisText
/- The two induction loops of sais.rs refine the abstract passes. -/
namespace Ribzip2.Sais
open Induce

theorem chr_mem {T : List Nat} {j : Nat} (h : j < T.length) : chr T j ∈ T := by
  simp [chr, List.getD, List.getElem?_eq_getElem h]

/-- Time-indexed view of an array, left to right. -/
def viewL (sa : List (Option Nat)) : Nat → Option Nat := fun x => sa.getD x none

/-- Time-indexed view of an array of `n + 1` slots, right to left. -/
def viewS (n : Nat) (sa : List (Option Nat)) : Nat → Option Nat :=
  fun x => if x ≤ n then sa.getD (n - x) none else none

theorem viewL_set (sa : List (Option Nat)) (h : Nat) (v : Option Nat) (hl : h < sa.length) :
    viewL (sa.set h v) = fun x => if x = h then v else viewL sa x := by
  funext x
  simp only [viewL, List.getD, List.getElem?_set]
  by_cases hx : h = x
  · subst hx; simp [hl]
  · rw [if_neg hx, if_neg (fun e => hx e.symm)]

theorem viewS_set (n : Nat) (sa : List (Option Nat)) (t : Nat) (v : Option Nat)
    (ht : t ≤ n) (hl : sa.length = n + 1) :
    viewS n (sa.set t v) = fun x => if x = n - t then v else viewS n sa x := by
  funext x
  simp only [viewS, List.getD, List.getElem?_set]
  by_cases hx : x = n - t
  · subst hx
    rw [if_pos (by omega), if_pos (by omega), if_pos (by omega), if_pos rfl]; rfl
  · rw [if_neg hx]
    by_cases hxn : x ≤ n
    · rw [if_pos hxn, if_pos hxn, if_neg (by omega)]
    · rw [if_neg hxn, if_neg hxn]

theorem idx_getD (sa : List (Option Nat)) (i : Nat) (h : i < sa.length) :
    idx sa i = Res.ok (sa.getD i none) := by
  simp [idx, List.getD, List.getElem?_eq_getElem h]

/-- All entries of an array are positions. -/
def Bounded (n : Nat) (sa : List (Option Nat)) : Prop := ∀ x p, sa.getD x none = some p → p ≤ n

theorem bounded_set {n : Nat} {sa : List (Option Nat)} (h : Bounded n sa) (t j : Nat) (hj : j ≤ n) :
    Bounded n (sa.set t (some j)) := by
  intro x p hp
  simp only [List.getD, List.getElem?_set] at hp
  by_cases hx : t = x
  · rw [if_pos hx] at hp
    split at hp
    · simp at hp; omega
    · simp at hp
  · rw [if_neg hx] at hp
    exact h x p hp

theorem predecessor_eq (e : Option Nat) (j : Nat) : predecessor e = some j ↔ e = some (j + 1) := by
  cases e with
  | none => simp [predecessor]
  | some k => cases k <;> simp [predecessor]

theorem loopL (T : List Nat) (K : Nat) (hK : ∀ x ∈ T, x < K) (B0 : Nat → Option Nat)
    (hok : (passL T).Ok B0) (k i : Nat) (sa : List (Option Nat)) (heads : List Nat) (cnt : Nat → Nat)
    (hik : i + k = T.length + 1) (hlen : sa.length = T.length + 1) (hbd : Bounded T.length sa)
    (hhl : heads.length = K) (hheads : ∀ c, c < K → heads[c]? = some (1 + cntLt T c + cnt c))
    (hinv : (passL T).Inv B0 i (viewL sa) cnt) :
    ∃ sa', inductionLLoop T (getSuffixTypes T) k i sa heads = Res.ok sa' ∧ sa'.length = T.length + 1 ∧
      Bounded T.length sa' ∧ (passL T).Done B0 (viewL sa') := by
  induction k generalizing i sa heads cnt with
  | zero =>
    refine ⟨sa, rfl, hlen, hbd, done_of_inv hok (cnt := cnt) ?_⟩
    rw [show (passL T).N = i from by simp only [passL]; omega]
    exact hinv
  | succ k ih =>
    rw [inductionLLoop, idx_getD sa i (by omega), Res.ok_bind]
    cases hp : predecessor (sa.getD i none) with
    | none =>
      dsimp only
      refine ih (i + 1) sa heads cnt (by omega) hlen hbd hhl hheads (inv_skip hok hinv ?_)
      intro j hj
      rw [viewL] at hj
      rw [(predecessor_eq _ j).2 hj] at hp
      simp at hp
    | some j =>
      have he := (predecessor_eq _ j).1 hp
      have hjn : j + 1 ≤ T.length := hbd i (j + 1) he
      dsimp only
      rw [idx_types T j (by omega), Res.ok_bind]
      cases ht : typ T j with
      | true =>
        simp only [if_true]
        refine ih (i + 1) sa heads cnt (by omega) hlen hbd hhl hheads (inv_skip hok hinv ?_)
        intro j' hj'
        rw [viewL, he] at hj'
        simp only [Option.some.injEq, Nat.add_right_cancel_iff] at hj'
        subst hj'
        simp [passL, ht]
      | false =>
        simp only [Bool.false_eq_true, if_false]
        have hact : (passL T).act j = true := by simp [passL, ht]; omega
        have hiN : i < (passL T).N := by simp only [passL]; omega
        have hroom := (room hok hinv hiN he hact).2
        have hbnd := hok.bound _ _ hroom
        have hc : chr T j < K := hK _ (chr_mem (by omega))
        have hslot : 1 + cntLt T (chr T j) + cnt (chr T j) < T.length + 1 := hbnd
        have e1 : idx heads (chr T j) = Res.ok (1 + cntLt T (chr T j) + cnt (chr T j)) := by
          rw [idx, hheads _ hc, Res.ofOption_some]
        rw [placeHead, idx_chr T j (by omega), Res.ok_bind, e1, Res.ok_bind, setIdx,
          if_pos (by rw [hlen]; exact hslot), Res.ok_bind, setIdx, if_pos (by rw [hhl]; exact hc), Res.ok_bind]
        simp only [Res.pure_eq, Res.ok_bind]
        refine ih (i + 1) _ _ (stepCnt (passL T) cnt j) (by omega) (by rw [List.length_set]; exact hlen)
          (bounded_set hbd _ _ (by omega)) (by rw [List.length_set]; exact hhl) ?_ ?_
        · intro c hcK
          rw [List.getElem?_set]
          unfold stepCnt
          by_cases hcc : chr T j = c
          · subst hcc
            rw [if_pos rfl, if_pos (by omega), if_pos (show chr T j = (passL T).ch j from rfl)]; rfl
          · rw [if_neg hcc, if_neg (fun e => hcc e.symm), hheads c hcK]
        · have := inv_place hok hinv hiN he hact
          rw [viewL_set _ _ _ (by rw [hlen]; exact hslot)]
          exact this

theorem loopS (T : List Nat) (K : Nat) (hK : ∀ x ∈ T, x < K) (B0 : Nat → Option Nat)
    (hok : (passS T).Ok B0) (k : Nat) (sa : List (Option Nat)) (tails : List Nat) (cnt : Nat → Nat)
    (hk : k ≤ T.length + 1) (hlen : sa.length = T.length + 1) (hbd : Bounded T.length sa)
    (htl : tails.length = K) (htails : ∀ c, c < K → tails[c]? = some (cntLt T (c + 1) - cnt c))
    (hinv : (passS T).Inv B0 (T.length + 1 - k) (viewS T.length sa) cnt) :
    ∃ sa', inductionSLoop T (getSuffixTypes T) k sa tails = Res.ok sa' ∧ sa'.length = T.length + 1 ∧
      Bounded T.length sa' ∧ (passS T).Done B0 (viewS T.length sa') := by
  induction k generalizing sa tails cnt with
  | zero =>
    refine ⟨sa, rfl, hlen, hbd, done_of_inv hok (cnt := cnt) ?_⟩
    exact hinv
  | succ k ih =>
    have hi : T.length + 1 - (k + 1) = T.length - k := by omega
    have hi' : T.length + 1 - k = T.length - k + 1 := by omega
    rw [hi] at hinv
    rw [hi'] at ih
    have hview : viewS T.length sa (T.length - k) = sa.getD k none := by
      rw [viewS, if_pos (by omega)]; congr 1; omega
    rw [inductionSLoop, idx_getD sa k (by omega), Res.ok_bind]
    cases hp : predecessor (sa.getD k none) with
    | none =>
      dsimp only
      refine ih sa tails cnt (by omega) hlen hbd htl htails (inv_skip hok hinv ?_)
      intro j hj
      rw [hview] at hj
      rw [(predecessor_eq _ j).2 hj] at hp
      simp at hp
    | some j =>
      have he := (predecessor_eq _ j).1 hp
      have hjn : j + 1 ≤ T.length := hbd k (j + 1) he
      dsimp only
      rw [idx_types T j (by omega), Res.ok_bind]
      cases ht : typ T j with
      | false =>
        simp only [Bool.false_eq_true, if_false]
        refine ih sa tails cnt (by omega) hlen hbd htl htails (inv_skip hok hinv ?_)
        intro j' hj'
        rw [hview, he] at hj'
        simp only [Option.some.injEq, Nat.add_right_cancel_iff] at hj'
        subst hj'
        simp [passS, ht]
      | true =>
        simp only [if_true]
        have hact : (passS T).act j = true := by simp [passS, ht]; omega
        have hiN : T.length - k < (passS T).N := by simp only [passS]; omega
        rw [← hview] at he
        have hroom := (room hok hinv hiN he hact).2
        have hbnd := hok.bound _ _ hroom
        have hc : chr T j < K := hK _ (chr_mem (by omega))
        have hsz := sizes_add T (chr T j)
        have hcs := cntLt_succ T (chr T j)
        have hcl := cntLt_le T (chr T j + 1)
        have hroom' : cnt (chr T j) < (passS T).size (chr T j) := hroom
        have e1 : idx tails (chr T j) = Res.ok (cntLt T (chr T j + 1) - cnt (chr T j)) := by
          rw [idx, htails _ hc, Res.ofOption_some]
        rw [placeTail, idx_chr T j (by omega), Res.ok_bind, e1, Res.ok_bind, setIdx,
          if_pos (by rw [hlen]; omega), Res.ok_bind, subU, if_pos (by omega), Res.ok_bind, setIdx,
          if_pos (by rw [htl]; exact hc), Res.ok_bind]
        simp only [Res.pure_eq, Res.ok_bind]
        refine ih _ _ (stepCnt (passS T) cnt j) (by omega) (by rw [List.length_set]; exact hlen)
          (bounded_set hbd _ _ (by omega)) (by rw [List.length_set]; exact htl) ?_ ?_
        · intro c hcK
          rw [List.getElem?_set]
          unfold stepCnt
          by_cases hcc : chr T j = c
          · subst hcc
            rw [if_pos rfl, if_pos (by omega), if_pos (show chr T j = (passS T).ch j from rfl)]
            congr 1
          · rw [if_neg hcc, if_neg (fun e => hcc e.symm), htails c hcK]
        · have := inv_place hok hinv hiN he hact
          rw [viewS_set _ _ _ _ (by omega) hlen]
          have hbase : T.length - (cntLt T (chr T j + 1) - cnt (chr T j))
              = (passS T).base ((passS T).ch j) + cnt ((passS T).ch j) := by
            simp only [passS]; omega
          rw [hbase]
          exact this

/-! ### regions -/

theorem inRegionL_iff (T : List Nat) (x : Nat) :
    (passL T).InRegion x ↔ ∃ c, 1 + cntLt T c ≤ x ∧ x < 1 + cntLt T c + (passL T).size c := by
  constructor
  · rintro ⟨c, k, hk, rfl⟩
    exact ⟨c, by simp [passL], by simp only [passL] at *; omega⟩
  · rintro ⟨c, h1, h2⟩
    exact ⟨c, x - (1 + cntLt T c), by omega, by simp only [passL]; omega⟩

/-- A slot of the S part of a bucket, by its number. -/
theorem inRegionS_iff (T : List Nat) (s : Nat) (hs : s ≤ T.length) :
    (passS T).InRegion (T.length - s) ↔ ∃ c, 1 + cntLt T c + (passL T).size c ≤ s ∧ s ≤ cntLt T (c + 1) := by
  constructor
  · rintro ⟨c, k, hk, e⟩
    have := sizes_add T c
    have := cntLt_succ T c
    have := cntLt_le T (c + 1)
    simp only [passS] at e
    have e' : s + k = cntLt T (c + 1) := by omega
    exact ⟨c, by omega, by omega⟩
  · rintro ⟨c, h1, h2⟩
    have := sizes_add T c
    have := cntLt_succ T c
    have := cntLt_le T (c + 1)
    exact ⟨c, cntLt T (c + 1) - s, by omega, by simp only [passS]; omega⟩

/-- Input of the first pass: position `n` in front, leftmost S positions in the S parts of their
buckets, each once, and nothing else. -/
structure Seeded (T : List Nat) (sa : List (Option Nat)) : Prop where
  len : sa.length = T.length + 1
  zero : sa.getD 0 none = some T.length
  seed : ∀ x p, 1 ≤ x → sa.getD x none = some p → p < T.length ∧ lms T p = true ∧
    1 + cntLt T (chr T p) + (passL T).size (chr T p) ≤ x ∧ x ≤ cntLt T (chr T p + 1)
  all : ∀ p, p < T.length → lms T p = true → ∃ x, 1 ≤ x ∧ x ≤ T.length ∧ sa.getD x none = some p
  inj : ∀ x x' p, sa.getD x none = some p → sa.getD x' none = some p → x = x'

theorem seeded_bounded {T : List Nat} {sa : List (Option Nat)} (h : Seeded T sa) : Bounded T.length sa := by
  intro x p hp
  by_cases hx : x = 0
  · subst hx
    rw [h.zero] at hp
    simp at hp; omega
  · have := (h.seed x p (by omega) hp).1
    omega

theorem getD_lt {sa : List (Option Nat)} {x p : Nat} (h : sa.getD x none = some p) : x < sa.length := by
  by_contra hx
  rw [List.getD, List.getElem?_eq_none (by omega)] at h
  simp at h

theorem okL {T : List Nat} {sa : List (Option Nat)} (h : Seeded T sa) : (passL T).Ok (viewL sa) := by
  have hnr : ∀ x p, 1 ≤ x → sa.getD x none = some p → ¬ (passL T).InRegion x := by
    intro x p hx hp hr
    obtain ⟨-, -, h1, h2⟩ := h.seed x p hx hp
    obtain ⟨c, h3, h4⟩ := (inRegionL_iff T x).1 hr
    have := sizes_add T c
    have := cntLt_succ T c
    have := bucket_unique T (show 1 + cntLt T (chr T p) ≤ x by omega) h2 h3 (by omega)
    subst this
    omega
  have hnr0 : ¬ (passL T).InRegion 0 := by
    intro hr
    obtain ⟨c, h3, h4⟩ := (inRegionL_iff T 0).1 hr
    omega
  refine ⟨?_, ?_, ?_, ?_, ?_, ?_⟩
  · intro c k hk
    have := sizes_add T c
    have := cntLt_succ T c
    have := cntLt_le T (c + 1)
    simp only [passL] at *
    omega
  · intro c k c' k' hk hk' e
    have := sizes_add T c
    have := cntLt_succ T c
    have := sizes_add T c'
    have := cntLt_succ T c'
    have e' : 1 + cntLt T c + k = 1 + cntLt T c' + k' := e
    exact bucket_unique T (x := 1 + cntLt T c + k) (by omega) (by omega) (by omega) (by omega)
  · intro j hj
    simp [passL] at hj
    exact hj.1
  · intro j hj
    simp only [passL, Bool.and_eq_true, decide_eq_true_eq, Bool.not_eq_true'] at hj
    obtain ⟨hjn, hjt⟩ := hj
    rcases typ_L hjn hjt with h1 | ⟨h1, h2⟩
    · left
      exact ⟨0, by simp only [passL]; omega, hnr0, by rw [viewL, h.zero, h1]⟩
    · by_cases ht : typ T (j + 1) = true
      · left
        have hlt : chr T (j + 1) < chr T j := by
          rcases h2 with h2 | ⟨-, h2⟩
          · exact h2
          · rw [ht] at h2; exact Bool.noConfusion h2
        obtain ⟨x, x1, x2, x3⟩ := h.all (j + 1) h1 (lms_iff.2 ⟨by omega, ht, by simpa using hjt⟩)
        obtain ⟨-, -, s1, s2⟩ := h.seed x _ x1 x3
        refine ⟨x, ?_, hnr x _ x1 x3, x3⟩
        have := cntLt_mono T (show chr T (j + 1) + 1 ≤ chr T j from hlt)
        simp only [passL]
        omega
      · right
        have ht : typ T (j + 1) = false := by simpa using ht
        refine ⟨by simp [passL, ht, h1], ?_⟩
        rcases h2 with h2 | ⟨h2, -⟩
        · right
          have := cntLt_mono T (show chr T (j + 1) + 1 ≤ chr T j from h2)
          have := sizes_add T (chr T (j + 1))
          have := cntLt_succ T (chr T (j + 1))
          simp only [passL] at *
          omega
        · left; exact h2.symm
  · intro x p hx _ hp
    rw [viewL] at hp
    by_cases hx0 : x = 0
    · subst hx0
      rw [h.zero] at hp
      simp only [Option.some.injEq] at hp
      subst hp
      simp [passL]
    · obtain ⟨-, h2, -⟩ := h.seed x p (by omega) hp
      have := (lms_iff.1 h2).2.1
      simp [passL, this]
  · intro x x' p _ _ _ _ h1 h2
    exact h.inj x x' p h1 h2

/-- After the first pass: position `n`, all L positions in the L parts of their buckets, and the seeds. -/
theorem passL_spec {T : List Nat} {K : Nat} {sizes : List Nat} (hB : Buckets T K sizes)
    {sa : List (Option Nat)} (h : Seeded T sa) :
    ∃ sa', inductionSortL sa T (getSuffixTypes T) sizes = Res.ok sa' ∧ sa'.length = T.length + 1 ∧
      Bounded T.length sa' ∧ (passL T).Done (viewL sa) (viewL sa') := by
  rw [inductionSortL, h.len]
  exact loopL T K hB.chr_lt (viewL sa) (okL h) (T.length + 1) 0 sa _ (fun _ => 0) (by omega) h.len
    (seeded_bounded h) hB.heads_len (by intro c hc; rw [hB.head c hc]; simp) (inv_init (okL h))

/-- A slot beyond the first belongs to the L part or the S part of a bucket. -/
theorem slot_cases (T : List Nat) (s : Nat) (h1 : 1 ≤ s) (h2 : s ≤ T.length) :
    (passL T).InRegion s ∨ (passS T).InRegion (T.length - s) := by
  obtain ⟨c, h3, h4⟩ := bucket_of_slot T s h1 h2
  by_cases h5 : s < 1 + cntLt T c + (passL T).size c
  · exact Or.inl ((inRegionL_iff T s).2 ⟨c, h3, h5⟩)
  · exact Or.inr ((inRegionS_iff T s h2).2 ⟨c, by omega, h4⟩)

theorem regions_disjoint (T : List Nat) (s : Nat) (h : s ≤ T.length) (hL : (passL T).InRegion s)
    (hS : (passS T).InRegion (T.length - s)) : False := by
  obtain ⟨c, h1, h2⟩ := (inRegionL_iff T s).1 hL
  obtain ⟨c', h3, h4⟩ := (inRegionS_iff T s h).1 hS
  have := sizes_add T c
  have := cntLt_succ T c
  have := bucket_unique T h1 (show s ≤ cntLt T (c + 1) by omega) (show 1 + cntLt T c' ≤ s by omega) h4
  subst this
  omega

theorem zero_not_S (T : List Nat) : ¬ (passS T).InRegion T.length := by
  intro h
  rw [show T.length = T.length - 0 from rfl] at h
  obtain ⟨c, h1, -⟩ := (inRegionS_iff T 0 (Nat.zero_le _)).1 h
  omega

theorem okS {T : List Nat} {sa sa' : List (Option Nat)} (h : Seeded T sa)
    (hd : (passL T).Done (viewL sa) (viewL sa')) : (passS T).Ok (viewS T.length sa') := by
  have hzero : sa'.getD 0 none = some T.length := by
    have := hd.static 0 (by intro hr; obtain ⟨c, h3, -⟩ := (inRegionL_iff T 0).1 hr; omega)
    simp only [viewL] at this
    rw [this, h.zero]
  have hstat : ∀ x, x < (passS T).N → ¬ (passS T).InRegion x →
      (T.length - x = 0 ∨ (passL T).InRegion (T.length - x)) := by
    intro x hx hnr
    simp only [passS] at hx
    by_cases hs : T.length - x = 0
    · exact Or.inl hs
    · right
      rcases slot_cases T (T.length - x) (by omega) (by omega) with h' | h'
      · exact h'
      · rw [show T.length - (T.length - x) = x by omega] at h'
        exact absurd h' hnr
  refine ⟨?_, ?_, ?_, ?_, ?_, ?_⟩
  · intro c k hk
    have := sizes_add T c
    have := cntLt_succ T c
    have := cntLt_le T (c + 1)
    simp only [passS] at *
    omega
  · intro c k c' k' hk hk' e
    have := sizes_add T c
    have := cntLt_succ T c
    have := cntLt_le T (c + 1)
    have := sizes_add T c'
    have := cntLt_succ T c'
    have := cntLt_le T (c' + 1)
    have e' : T.length - cntLt T (c + 1) + k = T.length - cntLt T (c' + 1) + k' := e
    exact bucket_unique T (x := cntLt T (c + 1) - k) (by omega) (by omega) (by omega) (by omega)
  · intro j hj
    simp [passS] at hj
    exact hj.1
  · intro j hj
    simp only [passS, Bool.and_eq_true, decide_eq_true_eq] at hj
    obtain ⟨hjn, hjt⟩ := hj
    obtain ⟨h1, h2⟩ := typ_S hjn hjt
    by_cases ht : typ T (j + 1) = true
    · right
      refine ⟨by simp [passS, ht, h1], ?_⟩
      rcases h2 with h2 | ⟨h2, -⟩
      · right
        have := cntLt_mono T (show chr T j + 1 ≤ chr T (j + 1) from h2)
        have := sizes_add T (chr T (j + 1))
        have := cntLt_succ T (chr T (j + 1))
        have := cntLt_le T (chr T (j + 1) + 1)
        simp only [passS] at *
        omega
      · left; exact h2.symm
    · left
      have ht : typ T (j + 1) = false := by simpa using ht
      have hlt : chr T j < chr T (j + 1) := by
        rcases h2 with h2 | ⟨-, h2⟩
        · exact h2
        · rw [ht] at h2; exact Bool.noConfusion h2
      obtain ⟨k, hk, e⟩ := hd.all (j + 1) (by simp [passL, ht, h1])
      simp only [viewL, passL] at e
      have hk' : k < (passL T).size (chr T (j + 1)) := hk
      have := sizes_add T (chr T (j + 1))
      have := cntLt_succ T (chr T (j + 1))
      have := cntLt_le T (chr T (j + 1) + 1)
      have := cntLt_mono T (show chr T j + 1 ≤ chr T (j + 1) from hlt)
      refine ⟨T.length - (1 + cntLt T (chr T (j + 1)) + k), by simp only [passS]; omega, ?_, ?_⟩
      · intro hr
        exact regions_disjoint T _ (by omega) ((inRegionL_iff T _).2 ⟨chr T (j + 1), by omega, by omega⟩) hr
      · rw [viewS, if_pos (by omega), show T.length - (T.length - (1 + cntLt T (chr T (j + 1)) + k))
          = 1 + cntLt T (chr T (j + 1)) + k by omega]
        exact e
  · intro x p hx hnr hp
    simp only [passS] at hx
    rw [viewS, if_pos (by omega)] at hp
    rcases hstat x hx hnr with h0 | hr
    · rw [h0, hzero] at hp
      simp only [Option.some.injEq] at hp
      subst hp
      simp [passS]
    · obtain ⟨c, k, hk, e⟩ := hr
      obtain ⟨j, y, e1, e2, -⟩ := hd.entry c k hk
      rw [← e, viewL, hp] at e1
      simp only [Option.some.injEq] at e1
      subst e1
      simp only [passL, Bool.and_eq_true, Bool.not_eq_true'] at e2
      simp [passS, e2.2]
  · intro x x' p hx hx' _ _ h1 h2
    simp only [passS] at hx hx'
    rw [viewS, if_pos (by omega)] at h1 h2
    have := hd.inj (T.length - x) (T.length - x') p (by simp only [passL]; omega)
      (by simp only [passL]; omega) h1 h2
    omega

theorem passS_spec {T : List Nat} {K : Nat} {sizes : List Nat} (hB : Buckets T K sizes)
    {sa sa' : List (Option Nat)} (h : Seeded T sa) (hl : sa'.length = T.length + 1)
    (hbd : Bounded T.length sa') (hd : (passL T).Done (viewL sa) (viewL sa')) :
    ∃ sa'', inductionSortS sa' T (getSuffixTypes T) sizes = Res.ok sa'' ∧ sa''.length = T.length + 1 ∧
      Bounded T.length sa'' ∧ (passS T).Done (viewS T.length sa') (viewS T.length sa'') := by
  rw [inductionSortS, hl]
  exact loopS T K hB.chr_lt _ (okS h hd) (T.length + 1) sa' _ (fun _ => 0) (Nat.le_refl _) hl hbd
    hB.tails_len (by intro c hc; rw [hB.tail c hc]; simp)
    (by rw [Nat.sub_self]; exact inv_init (okS h hd))

end Ribzip2.Sais
