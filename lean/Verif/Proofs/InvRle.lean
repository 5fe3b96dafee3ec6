import Verif.Proofs.Rle
import Verif.Spec.Format
/- `inverse_rle` on arbitrary input: it is the standard decoder unless a repeat count collides. -/
namespace Ribzip2
open Spec

/-- Split off the first run. -/
theorem split_run (b : UInt8) (l : List UInt8) :
    ∃ k y, l = List.replicate k b ++ y ∧ y.head? ≠ some b := by
  induction l with
  | nil => exact ⟨0, [], rfl, by simp⟩
  | cons a l ih =>
    by_cases h : a = b
    · obtain ⟨k, y, h1, h2⟩ := ih
      exact ⟨k + 1, y, by rw [h1, h]; rfl, h2⟩
    · exact ⟨0, a :: l, rfl, by simp [h]⟩

theorem countHazard_short (n : Nat) (b : UInt8) (y : List UInt8) (hn : n ≤ 3)
    (hy : y.head? ≠ some b) : countHazard (List.replicate n b ++ y) = countHazard y := by
  have step : ∀ z, (∀ a1 a2 a3 n' r, b :: z = a1 :: a1 :: a2 :: a3 :: n' :: r → ¬ (a1 = a2 ∧ a1 = a3)) →
      countHazard (b :: z) = countHazard z := by
    intro z hz
    match z with
    | [] => rfl
    | [_] => rfl
    | [_, _] => rfl
    | [_, _, _] => rfl
    | c :: d :: e :: n' :: r =>
      rw [countHazard]
      rw [if_neg]
      intro ⟨h1, h2, h3⟩
      subst h1
      exact hz _ _ _ _ _ rfl ⟨h2, h3⟩
  match y, hy with
  | [], _ =>
    have : n = 0 ∨ n = 1 ∨ n = 2 ∨ n = 3 := by omega
    rcases this with h | h | h | h <;> subst h <;> simp [List.replicate_succ, countHazard]
  | x :: y, hy =>
    have hx : x ≠ b := by simpa using hy
    have : n = 0 ∨ n = 1 ∨ n = 2 ∨ n = 3 := by omega
    rcases this with h | h | h | h <;> subst h <;> simp only [List.replicate, List.nil_append, List.cons_append]
    · rw [step]
      intro a1 a2 a3 n' r h
      simp at h; exact absurd (h.2.1.trans h.1.symm) hx
    · rw [step, step]
      · intro a1 a2 a3 n' r h
        simp at h; exact absurd (h.2.1.trans h.1.symm) hx
      · intro a1 a2 a3 n' r h
        simp at h; intro ⟨g1, g2⟩
        exact hx (h.2.1.trans (g1.symm.trans h.1.symm))
    · rw [step, step, step]
      · intro a1 a2 a3 n' r h
        simp at h; exact absurd (h.2.1.trans h.1.symm) hx
      · intro a1 a2 a3 n' r h
        simp at h; intro ⟨g1, g2⟩
        exact hx (h.2.1.trans (g1.symm.trans h.1.symm))
      · intro a1 a2 a3 n' r h
        simp at h; intro ⟨g1, g2⟩
        exact hx (h.2.2.1.trans (g2.symm.trans h.1.symm))

theorem fold_run_fresh (s : InvRle) (c : UInt8) (m : Nat) (h1 : 1 ≤ m) (h2 : m ≤ 4)
    (he : s.equalCount ≤ 2) (hz : s.previous = none → s.equalCount = 0) (hp : s.previous ≠ some c) :
    (List.replicate m c).foldl invRleStep s = ⟨s.output ++ List.replicate m c, m - 1, some c⟩ := by
  obtain ⟨out, ec, prev⟩ := s
  simp only at *
  have first : invRleStep ⟨out, ec, prev⟩ c = ⟨out ++ [c], 0, some c⟩ := by
    cases prev with
    | none => simp [invRleStep, hz]
    | some p =>
      have : p ≠ c := fun h => hp (by rw [h])
      simp [invRleStep, this, show ec ≠ 3 by omega]
  have eq : ∀ out k, k < 3 → invRleStep ⟨out, k, some c⟩ c = ⟨out ++ [c], k + 1, some c⟩ := by
    intro out k hk; simp [invRleStep]; omega
  have : m = 1 ∨ m = 2 ∨ m = 3 ∨ m = 4 := by omega
  rcases this with h | h | h | h <;> subst h <;>
    simp [List.replicate_succ, eq, first]

theorem fold_run_collide (out : List UInt8) (c : UInt8) (m : Nat) (h1 : 1 ≤ m) (h3 : m ≤ 3) :
    (List.replicate m c).foldl invRleStep ⟨out, 0, some c⟩ = ⟨out ++ List.replicate m c, m, some c⟩ := by
  have eq : ∀ out k, k < 3 → invRleStep ⟨out, k, some c⟩ c = ⟨out ++ [c], k + 1, some c⟩ := by
    intro out k hk; simp [invRleStep]; omega
  have : m = 1 ∨ m = 2 ∨ m = 3 := by omega
  rcases this with h | h | h <;> subst h <;>
    simp [List.replicate_succ, eq]

theorem inverseRle_fold (l : List UInt8) (s : InvRle) (hh : countHazard l = false)
    (he : s.equalCount ≤ 2) (hz : s.previous = none → s.equalCount = 0)
    (hp : ∀ b, l.head? = some b → s.previous ≠ some b) :
    (l.foldl invRleStep s).output = s.output ++ rle1Decode l := by
  induction hl : l.length using Nat.strongRecOn generalizing l s with
  | _ n ih =>
    match l, hh, hp, hl with
    | [], _, _, _ => simp [rle1Decode]
    | b :: l', hh, hp, hl =>
      obtain ⟨k, y, e, hy⟩ := split_run b (b :: l')
      have hp' : s.previous ≠ some b := hp b rfl
      have hk1 : 1 ≤ k := by
        cases k with
        | zero =>
          simp only [List.replicate_zero, List.nil_append] at e
          rw [← e] at hy
          simp at hy
        | succ k => omega
      rw [e] at hh hl ⊢
      by_cases hk : k ≤ 3
      · rw [countHazard_short k b y hk hy] at hh
        rw [rle1Decode_short k b y hk hy, List.foldl_append,
          fold_run_fresh s b k hk1 (by omega) he hz hp']
        rw [ih y.length (by simp at hl; omega) y _ hh (by simp only; omega) (by simp)
          (by intro c hc h; simp only [Option.some.injEq] at h; subst h; exact hy hc) rfl]
        simp
      · -- a run of four and, if there is one, a count
        have hsplit : List.replicate k b = List.replicate 4 b ++ List.replicate (k - 4) b := by
          rw [List.replicate_append_replicate]; congr 1; omega
        rw [hsplit, List.append_assoc] at hh hl ⊢
        generalize hw : List.replicate (k - 4) b ++ y = w at *
        match w, hh, hl with
        | [], _, _ =>
          rw [List.foldl_append, fold_run_fresh s b 4 (by omega) (by omega) he hz hp']
          simp [List.replicate_succ, rle1Decode]
        | cnt :: rest, hh, hl =>
          have h4 : List.replicate 4 b ++ cnt :: rest = b :: b :: b :: b :: cnt :: rest := rfl
          have hd : rle1Decode (b :: b :: b :: b :: cnt :: rest)
              = List.replicate (4 + cnt.toNat) b ++ rle1Decode rest := by
            rw [rle1Decode]; simp
          have hh2 : (decide (rest.take 3 = [cnt, cnt, cnt] ∧ 4 ≤ rest.length) || countHazard rest) = false := by
            rw [h4, countHazard, if_pos ⟨rfl, rfl, rfl⟩] at hh
            exact hh
          rw [Bool.or_eq_false_iff] at hh2
          obtain ⟨hz1, hz2⟩ := hh2
          rw [h4, hd, ← h4, List.foldl_append, fold_run_fresh s b 4 (by omega) (by omega) he hz hp',
            List.foldl_cons]
          have hstep : invRleStep ⟨s.output ++ List.replicate 4 b, 4 - 1, some b⟩ cnt
              = ⟨s.output ++ List.replicate (4 + cnt.toNat) b, 0, some cnt⟩ := by
            simp only [invRleStep]
            rw [if_pos trivial, List.append_assoc, List.replicate_append_replicate]
          rw [hstep]
          have hlr : rest.length < n := by simp at hl; omega
          obtain ⟨j, z, e2, hz3⟩ := split_run cnt rest
          by_cases hj0 : j = 0
          · subst hj0
            simp only [List.replicate_zero, List.nil_append] at e2
            rw [ih rest.length hlr rest _ hz2 (by simp) (by simp)
              (by intro c hc h; simp only [Option.some.injEq] at h; subst h; rw [e2] at hc; exact hz3 hc) rfl]
            simp
          · by_cases hj : j ≤ 3
            · rw [e2] at hz2 ⊢
              rw [countHazard_short j cnt z hj hz3] at hz2
              rw [rle1Decode_short j cnt z hj hz3, List.foldl_append,
                fold_run_collide _ cnt j (by omega) hj]
              by_cases hj3 : j ≤ 2
              · have hzl : z.length < n := by rw [e2] at hlr; simp at hlr; omega
                rw [ih z.length hzl z _ hz2 (by simpa using hj3) (by simp)
                  (by intro c hc h; simp only [Option.some.injEq] at h; subst h; exact hz3 hc) rfl]
                simp
              · have : j = 3 := by omega
                subst this
                match z with
                | [] => simp [rle1Decode]
                | q :: z' =>
                  rw [e2] at hz1
                  simp [List.replicate_succ] at hz1
            · exfalso
              have : List.replicate j cnt = cnt :: cnt :: cnt :: cnt :: List.replicate (j - 4) cnt := by
                rw [show j = (j - 4) + 4 by omega]; rfl
              rw [e2, this] at hz1
              simp at hz1

/-- Without a count collision `inverse_rle` is the standard decoder. -/
theorem inverseRle_eq (l : List UInt8) (hh : countHazard l = false) : inverseRle l = rle1Decode l := by
  have := inverseRle_fold l ⟨[], 0, none⟩ hh (by simp) (by simp) (by simp)
  simpa [inverseRle] using this

end Ribzip2
