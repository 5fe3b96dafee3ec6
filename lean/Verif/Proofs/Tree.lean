import Verif.Spec.Huffman
import Mathlib.Data.List.Perm.Basic
import Mathlib.Algebra.BigOperators.Group.List.Lemmas
namespace Ribzip2
open Spec

theorem expand_leaf (t : Tree) (d x : Nat) (hx : x ∈ leafDepths t d) :
    ∃ t', ((leafDepths t' d)).Perm ((x + 1) :: (x + 1) :: (leafDepths t d).erase x) := by
  induction t generalizing d with
  | leaf =>
    simp only [leafDepths, List.mem_singleton] at hx
    subst hx
    exact ⟨Tree.node Tree.leaf Tree.leaf, by simp [leafDepths]⟩
  | node l r ihl ihr =>
    simp only [leafDepths] at hx ⊢
    by_cases hl : x ∈ leafDepths l (d + 1)
    · obtain ⟨l', h⟩ := ihl _ hl
      refine ⟨Tree.node l' r, ?_⟩
      rw [List.erase_append_left _ hl]
      simp only [leafDepths]
      exact h.append_right _
    · have hr : x ∈ leafDepths r (d + 1) := by
        rcases List.mem_append.1 hx with h | h
        · exact absurd h hl
        · exact h
      obtain ⟨r', h⟩ := ihr _ hr
      refine ⟨Tree.node l r', ?_⟩
      rw [List.erase_append_right _ hl]
      simp only [leafDepths]
      refine (h.append_left _).trans ?_
      refine (List.perm_middle).trans (List.Perm.cons _ ?_)
      exact List.perm_middle

theorem expand_leaves (m x : Nat) (rest : List Nat) (t : Tree)
    (h : (leafDepths t 0).Perm (List.replicate m x ++ rest)) :
    ∃ t', (leafDepths t' 0).Perm (List.replicate (2 * m) (x + 1) ++ rest) := by
  induction m generalizing t rest with
  | zero => exact ⟨t, by simpa using h⟩
  | succ m ih =>
    have hx : x ∈ leafDepths t 0 := h.mem_iff.2 (by simp [List.replicate_succ])
    obtain ⟨t1, h1⟩ := expand_leaf t 0 x hx
    have h2 : (leafDepths t1 0).Perm (List.replicate m x ++ ((x + 1) :: (x + 1) :: rest)) := by
      refine h1.trans ?_
      have := h.erase x
      rw [List.replicate_succ, List.cons_append, List.erase_cons_head] at this
      refine (((this.cons _).cons _)).trans ?_
      exact ((List.perm_middle.symm.cons _).trans List.perm_middle.symm)
    obtain ⟨t', h3⟩ := ih _ _ h2
    refine ⟨t', h3.trans ?_⟩
    rw [show 2 * (m + 1) = 2 * m + 2 by omega, List.replicate_add, List.append_assoc]
    rfl

theorem kraft_append (L : Nat) (a b : List Nat) : kraft L (a ++ b) = kraft L a + kraft L b := by
  simp [kraft]

theorem kraft_replicate (L m x : Nat) : kraft L (List.replicate m x) = m * 2 ^ (L - x) := by
  simp [kraft]

theorem kraft_succ (L : Nat) (ls : List Nat) (h : ∀ l ∈ ls, l ≤ L) : kraft (L + 1) ls = 2 * kraft L ls := by
  induction ls with
  | nil => rfl
  | cons l ls ih =>
    have hl := h l (by simp)
    have := ih (fun x hx => h x (by simp [hx]))
    simp only [kraft, List.map_cons, List.sum_cons] at this ⊢
    rw [this, show L + 1 - l = L - l + 1 by omega, Nat.pow_succ]
    omega

theorem tree_of_kraft (L : Nat) (ls : List Nat) (hk : KraftEq L ls) :
    ∃ t, (leafDepths t 0).Perm ls := by
  induction L generalizing ls with
  | zero =>
    have h0 : ls = List.replicate ls.length 0 := by
      rw [List.eq_replicate_iff]
      exact ⟨rfl, fun b hb => by have := hk.1 b hb; omega⟩
    have h1 := hk.2
    rw [h0, kraft_replicate] at h1
    simp at h1
    rw [h1] at h0
    exact ⟨Tree.leaf, by rw [h0]; simp [leafDepths]⟩
  | succ L ih =>
    let hi := ls.filter (fun l => decide (L + 1 ≤ l))
    let lo := ls.filter (fun l => !decide (L + 1 ≤ l))
    have hperm : (hi ++ lo).Perm ls := List.filter_append_perm _ _
    have hhi : hi = List.replicate hi.length (L + 1) := by
      rw [List.eq_replicate_iff]
      refine ⟨rfl, fun b hb => ?_⟩
      have h1 := hk.1 b (List.mem_filter.1 hb).1
      have h2 := (List.mem_filter.1 hb).2
      simp only [decide_eq_true_eq] at h2
      omega
    have hlo : ∀ l ∈ lo, l ≤ L := by
      intro l hl
      have h2 := (List.mem_filter.1 hl).2
      simp only [Bool.not_eq_true', decide_eq_false_iff_not] at h2
      omega
    have hsum : hi.length + 2 * kraft L lo = 2 ^ (L + 1) := by
      have h1 : kraft (L + 1) (hi ++ lo) = kraft (L + 1) ls := by
        unfold kraft; exact (hperm.map _).sum_eq
      rw [hk.2, kraft_append, kraft_succ L lo hlo, hhi, kraft_replicate] at h1
      simpa using h1
    rw [Nat.pow_succ] at hsum
    obtain ⟨m, hm⟩ : ∃ m, hi.length = 2 * m := ⟨hi.length / 2, by omega⟩
    obtain ⟨t, ht⟩ := ih (List.replicate m L ++ lo) ⟨by
      intro l hl
      rcases List.mem_append.1 hl with h | h
      · have := (List.mem_replicate.1 h).2; omega
      · exact hlo l h, by
      rw [kraft_append, kraft_replicate, Nat.sub_self]; omega⟩
    obtain ⟨t', ht'⟩ := expand_leaves m L lo t ht
    refine ⟨t', ht'.trans ?_⟩
    rw [← hm, ← hhi]
    exact hperm

end Ribzip2
