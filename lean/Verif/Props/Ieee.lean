import Verif.Proofs.IeeeRound
/- Property C71: the floating-point arithmetic of the encoder. -/
namespace Ribzip2
open Spec

/-- **C71.** Computed with the arithmetic of IEEE binary32 - infinities, NaN, subnormal numbers, saturating
conversions - the output of a compression is, for every reader, writer, number of threads and strategy, what it is
with unlimited exponents (the arithmetic of all other theorems about compression). -/
theorem C71_same_output (fuel : Nat) (r : Reader) (w : Writer) (t : Nat) (strategy : Strategy) :
    encodeStreamFuel32 fuel r w t strategy = encodeStreamFuel fuel euclid r w t strategy ∧
    encodeStream32 r w t strategy = encodeStream euclid r w t strategy :=
  ⟨encodeStreamFuel32_eq fuel r w t strategy, encodeStreamFuel32_eq _ r w t strategy⟩

/-- **C71.** In the clustering nothing overflows, no NaN and no subnormal number arises: after any number of rounds
on the symbol counts of the groups of a block, every centre consists of 0 and normal numbers, and its distance
from every group is a finite number. -/
theorem C71_finite (n : ℕ) (hn : n ≤ 400) (syms : List ℕ) (hs : syms.length < 2 ^ 20) (clusters rounds : ℕ)
    (start centres : List (List F32)) (a0 a : List UInt8)
    (h0 : initialCenters32 (groupCounts n syms) clusters clusters = Res.ok start)
    (h : lloyd32 n clusters (groupCounts n syms) rounds start a0 = Res.ok (centres, a)) :
    ∀ c ∈ centres, (∀ x ∈ c, ∃ q, x = F32.num q ∧ IsBinary32 q ∧ (q = 0 ∨ 2 ^ (-126 : ℤ) ≤ q)) ∧
      ∀ g ∈ groupCounts n syms, ∃ q, euclid32 c g = F32.num q ∧ 0 ≤ q := by
  obtain ⟨gl, gf⟩ := groupCounts_facts n syms
  have hd : ∀ p ∈ groupCounts n syms, p.length = n ∧ ∀ y ∈ p, y < 256 := fun p hp =>
    ⟨(gf p hp).1, fun y hy => by have := (gf p hp).2 y hy; omega⟩
  have hne : groupCounts n syms ≠ [] := by intro e; rw [e] at gl; simp at gl
  have hi := initialCenters32_eq (groupCounts n syms) (fun p hp => (hd p hp).2) clusters clusters
  obtain ⟨c0, c1, c2, c3⟩ := initialCenters_ok (groupCounts n syms) n clusters (fun p hp => (hd p hp).1) hne clusters
    (Nat.le_refl _)
  rw [c1] at hi
  obtain ⟨i1, i2⟩ := hi
  rw [h0, Res.ok.injEq] at i1
  subst i1
  obtain ⟨out, hout, hentry, hlen⟩ : ∃ out : List (List ℚ), centres = out.map (List.map F32.num) ∧
      (∀ c ∈ out, ∀ x ∈ c, Entry x) ∧ ∀ c ∈ out, c.length ≤ 400 := by
    have hl := lloyd32_eq n clusters (groupCounts n syms) hd hn (by omega) rounds c0 c2
      (fun c hc => ⟨c3 c hc, i2 c hc⟩) a0
    cases hr : lloyd euclid n clusters (groupCounts n syms) rounds c0 a0 with
    | ok r =>
      obtain ⟨o, a'⟩ := r
      rw [hr] at hl
      obtain ⟨l1, l2⟩ := hl
      rw [h, Res.ok.injEq, Prod.mk.injEq] at l1
      refine ⟨o, l1.1, l2, ?_⟩
      have hlen := lloyd_dims n clusters (groupCounts n syms) (fun p hp => (hd p hp).1) rounds c0 c2 c3 a0 _ _ hr
      intro c hc
      rw [hlen c hc]
      exact hn
    | err => rw [hr] at hl; rw [h] at hl; cases hl
    | panic => rw [hr] at hl; rw [h] at hl; cases hl
    | div => rw [hr] at hl; rw [h] at hl; cases hl
  subst hout
  intro c hc
  obtain ⟨c', hc', rfl⟩ := List.mem_map.1 hc
  refine ⟨?_, ?_⟩
  · intro x hx
    obtain ⟨q, hq, rfl⟩ := List.mem_map.1 hx
    have he := hentry c' hc' q hq
    refine ⟨q, rfl, entry_isBinary32 q he, ?_⟩
    rcases he.2 with h | ⟨h, -⟩
    · exact Or.inl h
    · exact Or.inr ((zpow_le_of (by norm_num)).trans h)
  · intro g hg
    refine ⟨euclid c' g, euclid32_num c' g (hentry c' hc') (hd g hg).2 (hlen c' hc'), ?_⟩
    exact isF32_nonneg (f32Sqrt_isF32 _)

/-- The rounding used is that of IEEE 754 to binary32: magnitudes from `2^128 - 2^103` become infinite, everything
else the nearest number, in a tie the one with an even significand. -/
theorem C71_rounding (q : ℚ) :
    (F32.round q = F32.inf (decide (q < 0)) ↔ (2 : ℚ) ^ (128 : ℤ) - 2 ^ (103 : ℤ) ≤ |q|) ∧
    (|q| < (2 : ℚ) ^ (128 : ℤ) - 2 ^ (103 : ℤ) → ∃ x, F32.round q = F32.num x ∧ NearestBinary32 q x ∧
      ∀ y, IsBinary32 y → y ≠ x → |x - q| = |y - q| → EvenBinary32 x) := by
  by_cases hq : q = 0
  · subst hq
    have e : F32.round 0 = F32.num 0 := by rw [F32.round, if_pos rfl]
    have hz : IsBinary32 0 := ⟨0, 0, by norm_num, by norm_num, by norm_num, by simp⟩
    rw [e]
    refine ⟨?_, fun _ => ⟨0, rfl, ⟨hz, fun y _ => by simp⟩, ?_⟩⟩
    · simp only [reduceCtorEq, abs_zero, false_iff, not_le]
      have : (2 : ℚ) ^ (103 : ℤ) < 2 ^ (128 : ℤ) := zpow_lt_iff.2 (by norm_num)
      linarith
    · intro y _ hne h
      simp at h
      exact absurd h.symm (by simpa using hne)
  · have ha : 0 < |q| := abs_pos.2 hq
    have ho := mag_overflow |q| ha
    rw [round_eq q hq]
    constructor
    · rw [← ho]
      split
      · rename_i h
        simp only [true_iff]
        exact h
      · rename_i h
        simp only [reduceCtorEq, false_iff]
        exact h
    · intro hlt
      have hb : mag |q| < 2 ^ (128 : ℤ) := by
        by_contra hc
        have := ho.1 (not_lt.1 hc)
        linarith
      rw [if_neg (not_le.2 hb)]
      have hn := mag_nearest |q| ha
      have hbin := mag_isBinary32 |q| ha hb
      have hneg : ∀ y, IsBinary32 y → IsBinary32 (-y) := by
        rintro y ⟨m, e, h1, h2, h3, h4⟩
        exact ⟨m, e, h1, h2, h3, by rw [abs_neg]; exact h4⟩
      by_cases hs : q < 0
      · rw [if_pos hs]
        have hqa : q = -|q| := by rw [abs_of_neg hs, neg_neg]
        generalize |q| = a at *
        have ex : ∀ y : ℚ, |-y - q| = |y - a| := by
          intro y
          rw [hqa, ← abs_neg]
          congr 1
          ring
        refine ⟨_, rfl, ⟨hneg _ hbin, fun y hy => ?_⟩, fun y hy hne h => ?_⟩
        · have := ex (-y)
          rw [neg_neg] at this
          rw [ex, this]
          exact hn _ (hneg y hy)
        · have h' := ex (-y)
          rw [neg_neg] at h'
          rw [ex, h'] at h
          obtain ⟨m, f, t1, t2, t3, t4⟩ := mag_tie a ha (-y) (hneg y hy) (fun hc => hne (by rw [← hc, neg_neg])) h
          exact ⟨m, f, t1, t2, t3, by rw [abs_neg]; exact t4⟩
      · rw [if_neg hs]
        have hqa : |q| = q := abs_of_nonneg (not_lt.1 hs)
        rw [hqa] at ha hb hn hbin
        rw [hqa]
        exact ⟨_, rfl, ⟨hbin, hn⟩, fun y hy hne h => mag_tie q ha y hy hne h⟩

/-- The cases the theorems rule out do exist: overflow, the largest number, a tie, a subnormal number, underflow to
0. -/
example : F32.round (2 ^ 128) = F32.inf false ∧ F32.round (-(2 ^ 128 - 2 ^ 103)) = F32.inf true ∧
    F32.round (2 ^ 128 - 2 ^ 103 - 1) = F32.num (2 ^ 128 - 2 ^ 104) ∧ F32.round (2 ^ 24 + 1) = F32.num (2 ^ 24) ∧
    F32.round (3 / 2 ^ 150) = F32.num (4 / 2 ^ 150) ∧ F32.round (1 / 2 ^ 150) = F32.num 0 := by decide +kernel

example : F32.add (F32.inf false) (F32.inf true) = F32.nan ∧ F32.div (F32.num 0) (F32.num 0) = F32.nan ∧
    F32.nan.toUsize = 0 ∧ (F32.num (2 ^ 70)).toUsize = 2 ^ 64 - 1 ∧ F32.lt F32.nan (F32.num 1) = false := by decide +kernel

/-- The case of C68 once more, in binary32. -/
example : kmeansSolve32 2 [[50, 0], [48, 2], [1, 49], [3, 47]] 2 2
    = Res.ok ([[490000, 10000], [20000, 480000]], [0, 0, 1, 1]) := by decide +kernel

/-- The hypotheses of `C71_finite` are met: 150 symbols in three groups (and an empty one), two clusters, one
round. -/
example : ∃ start centres a, initialCenters32 (groupCounts 2 (List.replicate 60 0 ++ List.replicate 90 1)) 2 2 = Res.ok start ∧
    lloyd32 2 2 (groupCounts 2 (List.replicate 60 0 ++ List.replicate 90 1)) 1 start [] = Res.ok (centres, a) ∧
    centres = [[F32.num 25, F32.num 0], [F32.num 5, F32.num 45]] := by
  have e : groupCounts 2 (List.replicate 60 0 ++ List.replicate 90 1) = [[50, 0], [10, 40], [0, 50], [0, 0]] := by
    have h1 : List.replicate 60 0 ++ List.replicate 90 1 = List.replicate 50 0 ++ ((List.replicate 10 0 ++ List.replicate 40 1)
      ++ (List.replicate 50 1 ++ [])) := by decide
    rw [groupCounts, h1, groupsOf50, if_pos (by simp), groupsOf50, if_pos (by simp), groupsOf50, if_pos (by simp), groupsOf50]
    decide
  rw [e]
  exact ⟨[[F32.num 50, F32.num 0], [F32.num 0, F32.num 50]], [[F32.num 25, F32.num 0], [F32.num 5, F32.num 45]], [0, 1, 1, 0],
    by decide +kernel, by decide +kernel, rfl⟩

end Ribzip2
