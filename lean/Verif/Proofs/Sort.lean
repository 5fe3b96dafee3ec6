import Verif.Model.Basic
namespace Ribzip2

variable {α : Type}

theorem insertBy_perm (le : α → α → Bool) (a : α) (l : List α) : (insertBy le a l).Perm (a :: l) := by
  induction l with
  | nil => exact List.Perm.refl _
  | cons b l ih =>
    unfold insertBy
    split
    · exact List.Perm.refl _
    · exact (ih.cons b).trans (List.Perm.swap a b l)

theorem stableSort_perm (le : α → α → Bool) (l : List α) : (stableSort le l).Perm l := by
  induction l with
  | nil => exact List.Perm.refl _
  | cons a l ih => exact (insertBy_perm le a _).trans (ih.cons a)

@[simp] theorem stableSort_length (le : α → α → Bool) (l : List α) :
    (stableSort le l).length = l.length := (stableSort_perm le l).length_eq

@[simp] theorem mem_stableSort {le : α → α → Bool} {l : List α} {a : α} :
    a ∈ stableSort le l ↔ a ∈ l := (stableSort_perm le l).mem_iff

/-- The order of a stable sort: sorted, and equal keys in the order `R` of the input. -/
theorem insertBy_pairwise (le : α → α → Bool) (R : α → α → Prop)
    (total : ∀ a b, le a b = true ∨ le b a = true)
    (trans : ∀ a b c, le a b = true → le b c = true → le a c = true)
    (a : α) (l : List α) (ha : ∀ b ∈ l, R a b)
    (h : l.Pairwise (fun x y => le x y = true ∧ (le y x = true → R x y))) :
    (insertBy le a l).Pairwise (fun x y => le x y = true ∧ (le y x = true → R x y)) := by
  induction l with
  | nil => simp [insertBy]
  | cons b l ih =>
    rw [List.pairwise_cons] at h
    unfold insertBy
    split
    · rename_i hab
      refine List.pairwise_cons.2 ⟨?_, List.pairwise_cons.2 h⟩
      intro c hc
      refine ⟨?_, fun _ => ha c hc⟩
      rcases List.mem_cons.1 hc with rfl | hc
      · exact hab
      · exact trans _ _ _ hab (h.1 c hc).1
    · rename_i hab
      have hba : le b a = true := by
        rcases total a b with h | h
        · exact absurd h hab
        · exact h
      refine List.pairwise_cons.2 ⟨?_, ih (fun c hc => ha c (by simp [hc])) h.2⟩
      intro c hc
      rcases List.mem_cons.1 ((insertBy_perm le a l).mem_iff.1 hc) with rfl | hc
      · exact ⟨hba, fun h => absurd h hab⟩
      · exact h.1 c hc

theorem stableSort_stable (le : α → α → Bool) (R : α → α → Prop)
    (total : ∀ a b, le a b = true ∨ le b a = true)
    (trans : ∀ a b c, le a b = true → le b c = true → le a c = true)
    (l : List α) (h : l.Pairwise R) :
    (stableSort le l).Pairwise (fun x y => le x y = true ∧ (le y x = true → R x y)) := by
  induction l with
  | nil => exact List.Pairwise.nil
  | cons a l ih =>
    rw [List.pairwise_cons] at h
    exact insertBy_pairwise le R total trans a _ (fun b hb => h.1 b (mem_stableSort.1 hb)) (ih h.2)

theorem stableSort_sorted (le : α → α → Bool)
    (total : ∀ a b, le a b = true ∨ le b a = true)
    (trans : ∀ a b c, le a b = true → le b c = true → le a c = true)
    (l : List α) : (stableSort le l).Pairwise (fun x y => le x y = true) :=
  (stableSort_stable le (fun _ _ => True) total trans l
    (List.pairwise_of_forall (fun _ _ => trivial))).imp fun h => h.1

theorem stableSort_of_pairwise (le : α → α → Bool) (l : List α)
    (h : l.Pairwise (fun x y => le x y = true)) : stableSort le l = l := by
  induction l with
  | nil => rfl
  | cons a l ih =>
    rw [List.pairwise_cons] at h
    rw [stableSort, ih h.2]
    cases l with
    | nil => rfl
    | cons b l => rw [insertBy, if_pos (h.1 b (by simp))]

end Ribzip2
