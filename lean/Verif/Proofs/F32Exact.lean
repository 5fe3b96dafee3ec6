import Verif.Proofs.BlockWise
import Verif.Spec.KMeans
import Mathlib.Tactic.Ring
/- The `f32` operations of the model are correctly rounded. -/
namespace Ribzip2
open Spec

theorem lt_ilog2 (q : ℚ) (hq : 0 < q) : q < 2 ^ (ilog2 q + 1) := by
  unfold ilog2
  dsimp only
  split
  · have hn : 0 < q.num := Rat.num_pos.2 hq
    have hd : 0 < q.den := q.den_pos
    obtain ⟨n, hn'⟩ := Int.eq_ofNat_of_zero_le hn.le
    have h1 : n < 2 ^ (Nat.log2 n + 1) := Nat.lt_log2_self
    have h2 : 2 ^ Nat.log2 q.den ≤ q.den := Nat.log2_self_le hd.ne'
    have hq' : q = (n : ℚ) / q.den := by
      conv_lhs => rw [← Rat.num_div_den q, hn']
      simp
    have h1' : (n : ℚ) < 2 ^ (Nat.log2 n + 1) := by exact_mod_cast h1
    have h2' : (2 : ℚ) ^ Nat.log2 q.den ≤ q.den := by exact_mod_cast h2
    have hd' : (0 : ℚ) < q.den := by exact_mod_cast hd
    have e1 : q.num.toNat = n := by rw [hn']; simp
    rw [e1]
    have e2 : ((Nat.log2 n : Int) - (Nat.log2 q.den : Int) + 1) = ((Nat.log2 n + 1 : Nat) : Int) - (Nat.log2 q.den : Int) := by
      push_cast; ring
    rw [e2, zpow_sub₀ (by norm_num), zpow_natCast, zpow_natCast]
    generalize hD : (2 : ℚ) ^ Nat.log2 q.den = D at h2'
    have hD0 : 0 < D := by rw [← hD]; positivity
    rw [hq', div_lt_div_iff₀ hd' hD0]
    have hn0 : (0 : ℚ) ≤ n := by positivity
    nlinarith
  · rename_i h
    rw [pow2_eq] at h
    have e : (q.num.toNat.log2 : Int) - (q.den.log2 : Int) - 1 + 1 = (q.num.toNat.log2 : Int) - (q.den.log2 : Int) := by ring
    rw [e]
    exact not_le.1 h

/-- `roundHalfEven` gives a nearest integer, the even one if there are two. -/
theorem roundHalfEven_nearest (q : ℚ) (z : ℤ) : |(roundHalfEven q : ℚ) - q| ≤ |(z : ℚ) - q| := by
  have h := roundHalfEven_err q
  by_cases hz : z = roundHalfEven q
  · rw [hz]
  · have h1 : (1 : ℚ) ≤ |(z : ℚ) - roundHalfEven q| := by
      have : (1 : ℤ) ≤ |z - roundHalfEven q| := Int.one_le_abs (sub_ne_zero.2 hz)
      exact_mod_cast this
    have h2 : |(z : ℚ) - roundHalfEven q| ≤ |(z : ℚ) - q| + |(roundHalfEven q : ℚ) - q| := by
      rw [abs_sub_comm (roundHalfEven q : ℚ) q]
      have := abs_add_le ((z : ℚ) - q) (q - roundHalfEven q)
      simpa using this
    linarith

theorem roundHalfEven_even (q : ℚ) (z : ℤ) (hz : z ≠ roundHalfEven q) (h : |(roundHalfEven q : ℚ) - q| = |(z : ℚ) - q|) :
    roundHalfEven q % 2 = 0 := by
  have h1 : (q.floor : ℚ) ≤ q := Int.floor_le q
  have h2 : q < (q.floor : ℚ) + 1 := Int.lt_floor_add_one q
  have hh := roundHalfEven_err q
  have k1 : (1 : ℚ) ≤ |(z : ℚ) - roundHalfEven q| := by
    have : (1 : ℤ) ≤ |z - roundHalfEven q| := Int.one_le_abs (sub_ne_zero.2 hz)
    exact_mod_cast this
  have k2 : |(z : ℚ) - roundHalfEven q| ≤ |(z : ℚ) - q| + |(roundHalfEven q : ℚ) - q| := by
    rw [abs_sub_comm (roundHalfEven q : ℚ) q]
    have := abs_add_le ((z : ℚ) - q) (q - roundHalfEven q)
    simpa using this
  have k3 : |(roundHalfEven q : ℚ) - q| = 1 / 2 := by linarith
  revert k3
  simp only [roundHalfEven]
  by_cases g1 : q - (q.floor : ℚ) < 1 / 2
  · rw [if_pos g1, abs_sub_comm, abs_of_nonneg (by linarith)]; intro k3; linarith
  · rw [if_neg g1]
    by_cases g2 : 1 / 2 < q - (q.floor : ℚ)
    · rw [if_pos g2]
      push_cast
      rw [abs_of_nonneg (by linarith)]; intro k3; linarith
    · rw [if_neg g2]
      intro _
      by_cases g3 : q.floor % 2 = 0
      · rw [if_pos g3]; exact g3
      · rw [if_neg g3]; omega

theorem two_zpow_pos (e : ℤ) : (0 : ℚ) < 2 ^ e := by positivity

/-- The scaled value lies between `2^23` and `2^24`. -/
theorem f32_scaled (q : ℚ) (hq : 0 < q) :
    (2 : ℚ) ^ 23 ≤ q / pow2 (ilog2 q - 23) ∧ q / pow2 (ilog2 q - 23) < 2 ^ 24 := by
  have h1 := ilog2_le q hq
  have h2 := lt_ilog2 q hq
  rw [pow2_eq] at h1 ⊢
  have hu := two_zpow_pos (ilog2 q - 23)
  constructor
  · rw [le_div_iff₀ hu]
    have : (2 : ℚ) ^ 23 * 2 ^ (ilog2 q - 23) = 2 ^ (ilog2 q) := by
      rw [← zpow_natCast (2 : ℚ) 23, ← zpow_add₀ (by norm_num)]; congr 1; push_cast; ring
    rw [this]; exact h1
  · rw [div_lt_iff₀ hu]
    have : (2 : ℚ) ^ 24 * 2 ^ (ilog2 q - 23) = 2 ^ (ilog2 q + 1) := by
      rw [← zpow_natCast (2 : ℚ) 24, ← zpow_add₀ (by norm_num)]; congr 1; push_cast; ring
    rw [this]; exact h2

theorem f32Round_pos_eq (q : ℚ) (hq : 0 < q) :
    f32Round q = (roundHalfEven (q / pow2 (ilog2 q - 23)) : ℚ) * pow2 (ilog2 q - 23) := by
  rw [f32Round, if_neg (not_le.2 hq)]

theorem roundHalfEven_mono_int (q : ℚ) (z : ℤ) (h : (z : ℚ) ≤ q) : z ≤ roundHalfEven q := by
  have h1 := roundHalfEven_nearest q z
  by_contra hc
  have h2 : (roundHalfEven q : ℚ) + 1 ≤ z := by exact_mod_cast (by omega : roundHalfEven q + 1 ≤ z)
  rw [abs_sub_comm, abs_of_nonneg (by linarith), abs_sub_comm, abs_of_nonneg (by linarith)] at h1
  linarith

theorem roundHalfEven_le_int (q : ℚ) (z : ℤ) (h : q ≤ z) : roundHalfEven q ≤ z := by
  have h1 := roundHalfEven_nearest q z
  by_contra hc
  have h2 : (z : ℚ) + 1 ≤ roundHalfEven q := by exact_mod_cast (by omega : z + 1 ≤ roundHalfEven q)
  rw [abs_of_nonneg (by linarith), abs_of_nonneg (by linarith)] at h1
  linarith

/-- The significand lies between `2^23` and `2^24` (inclusive). -/
theorem f32_significand (q : ℚ) (hq : 0 < q) :
    (2 : ℤ) ^ 23 ≤ roundHalfEven (q / pow2 (ilog2 q - 23)) ∧ roundHalfEven (q / pow2 (ilog2 q - 23)) ≤ 2 ^ 24 := by
  obtain ⟨h1, h2⟩ := f32_scaled q hq
  exact ⟨roundHalfEven_mono_int _ _ (by push_cast; exact h1), roundHalfEven_le_int _ _ (by push_cast; exact h2.le)⟩

theorem f32Round_isF32 (q : ℚ) : IsF32 (f32Round q) := by
  by_cases hq : 0 < q
  · rw [f32Round_pos_eq q hq]
    obtain ⟨h1, h2⟩ := f32_significand q hq
    generalize hz : roundHalfEven (q / pow2 (ilog2 q - 23)) = z at h1 h2
    rw [pow2_eq]
    rcases h2.lt_or_eq with h2 | h2
    · refine ⟨z.toNat, ilog2 q - 23, by omega, ?_⟩
      congr 1
      have : ((z.toNat : ℤ) : ℚ) = (z : ℚ) := by rw [Int.toNat_of_nonneg (by omega)]
      exact_mod_cast this.symm
    · refine ⟨2 ^ 23, ilog2 q - 23 + 1, by norm_num, ?_⟩
      rw [h2, zpow_add_one₀ (by norm_num)]
      push_cast
      ring
  · rw [f32Round, if_pos (not_lt.1 hq)]
    exact ⟨0, 0, by norm_num, by simp⟩

/-- A value of `f32` is a multiple of the last place of `q`, or smaller than the power of two below `q`. -/
theorem isF32_cases (y : ℚ) (hy : IsF32 y) (k : ℤ) : (∃ z : ℕ, y = z * (2 : ℚ) ^ (k - 23)) ∨ y < 2 ^ k := by
  obtain ⟨m, e, hm, rfl⟩ := hy
  by_cases he : k - 23 ≤ e
  · left
    obtain ⟨n, hn⟩ := Int.eq_ofNat_of_zero_le (show 0 ≤ e - (k - 23) by omega)
    refine ⟨m * 2 ^ n, ?_⟩
    have : e = (k - 23) + (n : ℤ) := by omega
    rw [this, zpow_add₀ (by norm_num), zpow_natCast]
    push_cast
    ring
  · right
    have h1 : (2 : ℚ) ^ e ≤ 2 ^ (k - 24) := zpow_le_zpow_right₀ (by norm_num) (by omega)
    have h2 : (m : ℚ) < 2 ^ 24 := by exact_mod_cast hm
    have h3 : (2 : ℚ) ^ k = 2 ^ 24 * 2 ^ (k - 24) := by
      rw [← zpow_natCast (2 : ℚ) 24, ← zpow_add₀ (by norm_num)]; congr 1; push_cast; ring
    rw [h3]
    have := two_zpow_pos e
    have := two_zpow_pos (k - 24)
    have hm0 : (0 : ℚ) ≤ m := by positivity
    nlinarith

/-- `f32Round q` is a value of `f32` no other is closer to `q` than. -/
theorem f32Round_nearest (q : ℚ) (hq : 0 ≤ q) (y : ℚ) (hy : IsF32 y) : |f32Round q - q| ≤ |y - q| := by
  rcases hq.eq_or_lt with rfl | hq
  · rw [f32Round_zero]; simp
  have key : ∀ z : ℤ, |f32Round q - q| ≤ |(z : ℚ) * 2 ^ (ilog2 q - 23) - q| := by
    intro z
    rw [f32Round_pos_eq q hq, pow2_eq]
    have hu := two_zpow_pos (ilog2 q - 23)
    generalize (2 : ℚ) ^ (ilog2 q - 23) = u at hu
    have h := roundHalfEven_nearest (q / u) z
    have e : ∀ x : ℚ, |x * u - q| = |x - q / u| * u := by
      intro x
      rw [← abs_of_pos hu, ← abs_mul, abs_of_pos hu, sub_mul, div_mul_cancel₀ _ hu.ne']
    rw [e, e]
    exact mul_le_mul_of_nonneg_right h hu.le
  rcases isF32_cases y hy (ilog2 q) with ⟨z, rfl⟩ | h
  · exact_mod_cast key z
  · have h1 := key (2 ^ 23)
    have h2 : ((2 ^ 23 : ℤ) : ℚ) * 2 ^ (ilog2 q - 23) = 2 ^ (ilog2 q) := by
      rw [show ((2 ^ 23 : ℤ) : ℚ) = (2 : ℚ) ^ ((23 : ℕ) : ℤ) by norm_num, ← zpow_add₀ (by norm_num)]
      congr 1
      push_cast
      ring
    have h3 := ilog2_le q hq
    rw [h2] at h1
    rw [pow2_eq] at h3
    rw [abs_of_nonpos (sub_nonpos.2 h3)] at h1
    rw [abs_of_nonpos (by linarith : y - q ≤ 0)]
    linarith

/-- Relative error of rounding. -/
theorem f32Round_rel (q : ℚ) (hq : 0 ≤ q) : |f32Round q - q| ≤ q / 2 ^ 24 := by
  rcases hq.eq_or_lt with rfl | hq
  · rw [f32Round_zero]; simp
  have h3 := ilog2_le q hq
  rw [f32Round_pos_eq q hq]
  rw [pow2_eq] at h3 ⊢
  have hu := two_zpow_pos (ilog2 q - 23)
  have h2 : (2 : ℚ) ^ (ilog2 q) = 2 ^ 23 * 2 ^ (ilog2 q - 23) := by
    rw [← zpow_natCast (2 : ℚ) 23, ← zpow_add₀ (by norm_num)]; congr 1; push_cast; ring
  rw [h2] at h3
  generalize (2 : ℚ) ^ (ilog2 q - 23) = u at hu h3
  have h := roundHalfEven_err (q / u)
  have e : ∀ x : ℚ, |x * u - q| = |x - q / u| * u := by
    intro x
    rw [← abs_of_pos hu, ← abs_mul, abs_of_pos hu, sub_mul, div_mul_cancel₀ _ hu.ne']
  rw [e]
  have : |((roundHalfEven (q / u) : ℤ) : ℚ) - q / u| * u ≤ 1 / 2 * u := mul_le_mul_of_nonneg_right h hu.le
  have h5 : 1 / 2 * u ≤ q / 2 ^ 24 := by
    rw [le_div_iff₀ (by positivity)]
    linarith
  linarith

/-- In a tie the last bit of the result is 0. -/
theorem f32Round_tie (q : ℚ) (hq : 0 < q) (y : ℚ) (hy : IsF32 y) (hne : y ≠ f32Round q)
    (h : |f32Round q - q| = |y - q|) :
    ∃ (m : ℕ) (e : ℤ), 2 ^ 22 ≤ m ∧ m ≤ 2 ^ 23 ∧ f32Round q = (2 * m : ℕ) * 2 ^ e := by
  obtain ⟨h1, h2⟩ := f32_significand q hq
  have he : roundHalfEven (q / pow2 (ilog2 q - 23)) % 2 = 0 := by
    rcases isF32_cases y hy (ilog2 q) with ⟨z, rfl⟩ | hlt
    · have hu := two_zpow_pos (ilog2 q - 23)
      rw [f32Round_pos_eq q hq] at h hne
      rw [pow2_eq] at h hne ⊢
      generalize (2 : ℚ) ^ (ilog2 q - 23) = u at *
      have e : ∀ x : ℚ, |x * u - q| = |x - q / u| * u := by
        intro x
        rw [← abs_of_pos hu, ← abs_mul, abs_of_pos hu, sub_mul, div_mul_cancel₀ _ hu.ne']
      rw [e, e] at h
      refine roundHalfEven_even (q / u) z ?_ (by exact_mod_cast mul_right_cancel₀ hu.ne' h)
      rintro hz
      exact hne (by rw [← hz]; push_cast; rfl)
    · exfalso
      have h3 := ilog2_le q hq
      rw [pow2_eq] at h3
      have h4 := f32Round_nearest q hq.le (2 ^ ilog2 q) ⟨1, ilog2 q, by norm_num, by simp⟩
      rw [h, abs_of_nonpos (by linarith : y - q ≤ 0), abs_of_nonpos (sub_nonpos.2 h3)] at h4
      linarith
  rw [f32Round_pos_eq q hq, pow2_eq]
  rw [pow2_eq] at h1 h2 he
  generalize roundHalfEven (q / 2 ^ (ilog2 q - 23)) = z at *
  refine ⟨z.toNat / 2, ilog2 q - 23, by omega, by omega, ?_⟩
  congr 1
  have h5 : ((2 * (z.toNat / 2) : ℕ) : ℤ) = z := by omega
  have h6 : (((2 * (z.toNat / 2) : ℕ) : ℤ) : ℚ) = (z : ℚ) := by rw [h5]
  rw [← h6, Int.cast_natCast]

end Ribzip2
