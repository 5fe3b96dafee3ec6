import Verif.Spec.Cli
/- File names of the command line program. -/
namespace Ribzip2
open Spec

theorem dropTail_name (r d : List UInt8) (h1 : slash ∉ r) (h2 : r ≠ []) (h3 : r ≠ [dot]) :
    dropTail (r ++ d) = r ++ d := by
  cases r with
  | nil => exact absurd rfl h2
  | cons a r =>
    have ha : a ≠ 47 := fun h => h1 (by simp [h])
    cases r with
    | nil =>
      have hb : a ≠ 46 := fun h => h3 (by rw [h])
      simp only [List.cons_append, List.nil_append]
      unfold dropTail
      split
      · rename_i heq; simp only [List.cons.injEq] at heq; exact absurd heq.1 ha
      · rename_i heq; simp only [List.cons.injEq] at heq; exact absurd heq.1 hb
      · rfl
    | cons b r =>
      have hb : b ≠ 47 := fun h => h1 (by simp [h])
      simp only [List.cons_append]
      unfold dropTail
      split
      · rename_i heq; simp only [List.cons.injEq] at heq; exact absurd heq.1 ha
      · rename_i heq; simp only [List.cons.injEq] at heq; exact absurd heq.2.1 hb
      · rfl

theorem takeWhile_append_stop {α : Type} (f : α → Bool) (l m : List α) (hl : ∀ a ∈ l, f a = true)
    (hm : m = [] ∨ ∃ a m', m = a :: m' ∧ f a = false) :
    (l ++ m).takeWhile f = l ∧ (l ++ m).dropWhile f = m := by
  induction l with
  | nil =>
    rcases hm with rfl | ⟨a, m', rfl, h⟩
    · simp
    · simp [h]
  | cons a l ih =>
    have := ih fun b hb => hl b (by simp [hb])
    simp [hl a (by simp), this]

theorem splitFileName_file (dir name : List UInt8) (h : FilePath dir name) :
    splitFileName (dir ++ name) = some (dir, name) := by
  unfold splitFileName
  have e : dropTail (dir ++ name).reverse = name.reverse ++ dir.reverse := by
    rw [List.reverse_append]
    refine dropTail_name _ _ (by simpa using h.noSlash) (by simpa using h.ne) ?_
    intro hc
    have := congrArg List.reverse hc
    simp at this
    exact h.ne1 this
  have hst := takeWhile_append_stop (fun x : UInt8 => decide (x ≠ slash)) name.reverse dir.reverse (by
    intro a ha
    simp only [List.mem_reverse] at ha
    simp only [decide_eq_true_eq]
    rintro rfl
    exact h.noSlash ha) (by
    rcases h.dirEnd with rfl | ⟨d, rfl⟩
    · exact Or.inl rfl
    · exact Or.inr ⟨slash, d.reverse, by simp, by simp⟩)
  simp only [e, hst.1, hst.2, List.reverse_reverse]
  rw [if_neg]
  rintro (h1 | h1 | h1)
  · exact h.ne h1
  · exact h.ne1 h1
  · exact h.ne2 h1

theorem splitExtension_some (name before after : List UInt8) (h : splitExtension name = some (before, after)) :
    name = before ++ dot :: after := by
  unfold splitExtension at h
  simp only at h
  split at h
  · exact absurd h (by simp)
  · rename_i hc
    simp only [Option.some.injEq, Prod.mk.injEq] at h
    obtain ⟨rfl, rfl⟩ := h
    have key : ∀ l : List UInt8, ¬ (l.all (· ≠ dot)) → l = l.takeWhile (· ≠ dot) ++ dot :: (l.dropWhile (· ≠ dot)).drop 1 := by
      intro l
      induction l with
      | nil => simp
      | cons a l ih =>
        intro hl
        by_cases ha : a = dot
        · subst ha; simp
        · simp only [List.all_cons, ne_eq, ha, not_false_eq_true, decide_true, Bool.true_and] at hl
          have := ih (by simpa using hl)
          simp only [ne_eq, ha, not_false_eq_true, decide_true, List.takeWhile_cons_of_pos,
            List.dropWhile_cons_of_pos, List.cons_append, List.cons.injEq, true_and]
          exact this
    have hk := key name.reverse (by
      rw [List.all_reverse]
      intro hh
      exact hc (Or.inl hh))
    have := congrArg List.reverse hk
    rw [List.reverse_reverse] at this
    simpa using this

theorem splitExtension_append (before after : List UInt8) (h1 : before ≠ []) (h2 : dot ∉ after) :
    splitExtension (before ++ dot :: after) = some (before, after) := by
  unfold splitExtension
  have hst := takeWhile_append_stop (fun x : UInt8 => decide (x ≠ dot)) after.reverse (dot :: before.reverse) (by
    intro a ha
    simp only [List.mem_reverse] at ha
    simp only [decide_eq_true_eq]
    rintro rfl
    exact h2 ha) (Or.inr ⟨dot, before.reverse, rfl, by simp⟩)
  have e : (before ++ dot :: after).reverse = after.reverse ++ dot :: before.reverse := by simp
  simp only [e, hst.1, hst.2, List.drop_one, List.tail_cons, List.reverse_reverse]
  rw [if_neg]
  rintro (h | h)
  · simp at h
  · exact h1 h

theorem compressName_file (dir name : List UInt8) (h : FilePath dir name) :
    compressName (dir ++ name) = dir ++ name ++ dot :: bz2 := by
  unfold compressName extension setExtension
  simp only [splitFileName_file dir name h]
  cases hs : splitExtension name with
  | none => simp [bz2]
  | some x =>
    obtain ⟨before, after⟩ := x
    have := splitExtension_some name before after hs
    simp only
    rw [this, if_neg (by simp)]
    simp

theorem filePath_bz2 (dir name : List UInt8) (h : FilePath dir name) : FilePath dir (name ++ dot :: bz2) where
  dirEnd := h.dirEnd
  noSlash := by
    intro hc
    simp only [bz2, List.mem_append, List.mem_cons] at hc
    rcases hc with hc | hc
    · exact h.noSlash hc
    · revert hc; decide
  ne := by simp
  ne1 := by
    intro hc
    have := congrArg List.length hc
    simp [bz2] at this
  ne2 := by
    intro hc
    have := congrArg List.length hc
    simp [bz2] at this

theorem decompressName_file (dir before after : List UInt8) (h : FilePath dir (before ++ dot :: after))
    (h1 : before ≠ []) (h2 : dot ∉ after) : decompressName (dir ++ (before ++ dot :: after)) = dir ++ before := by
  unfold decompressName setExtension
  simp only [splitFileName_file _ _ h, splitExtension_append before after h1 h2]
  simp

/-- A name with no dot, or only a leading one. -/
theorem decompressName_none (dir name : List UInt8) (h : FilePath dir name) (h1 : splitExtension name = none) :
    decompressName (dir ++ name) = dir ++ name := by
  unfold decompressName setExtension
  simp only [splitFileName_file _ _ h, h1]
  simp

end Ribzip2
