import Verif.Proofs.F32Exact
/- The square root of the model is correctly rounded. -/
namespace Ribzip2
open Spec

theorem isqrtLoop_spec (n bits r : Nat) (h1 : r * r ≤ n) (h2 : n < (r + 2 ^ bits) * (r + 2 ^ bits)) :
    isqrtLoop n bits r * isqrtLoop n bits r ≤ n ∧ n < (isqrtLoop n bits r + 1) * (isqrtLoop n bits r + 1) := by
  induction bits generalizing r with
  | zero => simpa [isqrtLoop] using ⟨h1, h2⟩
  | succ b ih =>
    rw [isqrtLoop]
    split
    · rename_i h
      refine ih _ h ?_
      have : r + 2 ^ b + 2 ^ b = r + 2 ^ (b + 1) := by rw [pow_succ]; omega
      rw [this]; exact h2
    · rename_i h
      exact ih _ h1 (by omega)

/-- What the root is computed from: `r` is the integer root of `n = q * 4^s`, which has 65 or 66 bits. -/
theorem f32Sqrt_eq (q : ℚ) (hq : 0 < q) : ∃ (e : ℤ) (r : ℕ) (v : ℚ), (2 : ℚ) ^ e * 2 ^ e ≤ q ∧
    (r : ℚ) * r ≤ q * (2 ^ (32 - e) * 2 ^ (32 - e)) ∧ q * (2 ^ (32 - e) * 2 ^ (32 - e)) < ((r : ℚ) + 1) * (r + 1) ∧
    (2 : ℚ) ^ 32 ≤ r ∧
    (v = r ∧ (r : ℚ) * r = q * (2 ^ (32 - e) * 2 ^ (32 - e)) ∨ v = r + 1 / 2) ∧
    f32Sqrt q = f32Round (v / 2 ^ (32 - e)) := by
  have h1 := ilog2_le q hq
  have h2 := lt_ilog2 q hq
  rw [pow2_eq] at h1
  obtain ⟨e, he⟩ : ∃ e, e = ilog2 q / 2 := ⟨_, rfl⟩
  have a1 : (2 : ℚ) ^ e * 2 ^ e ≤ q := by
    rw [← zpow_add₀ (by norm_num)]
    exact le_trans (zpow_le_zpow_right₀ (by norm_num) (by omega)) h1
  have a2 : q < (2 : ℚ) ^ (e + 1) * 2 ^ (e + 1) := by
    rw [← zpow_add₀ (by norm_num)]
    exact lt_of_lt_of_le h2 (zpow_le_zpow_right₀ (by norm_num) (by omega))
  obtain ⟨p, hp⟩ : ∃ p : ℚ, p = 2 ^ (32 - e) := ⟨_, rfl⟩
  have hp0 : 0 < p := by rw [hp]; positivity
  have b1 : p * (2 : ℚ) ^ e = 2 ^ 32 := by
    rw [hp, ← zpow_add₀ (by norm_num)]; rw [show 32 - e + e = ((32 : ℕ) : ℤ) by push_cast; ring, zpow_natCast]
  have b2 : p * (2 : ℚ) ^ (e + 1) = 2 ^ 33 := by
    rw [zpow_add_one₀ (by norm_num), ← mul_assoc, b1]; norm_num
  obtain ⟨n, hn⟩ : ∃ n : ℚ, n = q * (p * p) := ⟨_, rfl⟩
  have n1 : (2 : ℚ) ^ 32 * 2 ^ 32 ≤ n := by
    rw [hn, ← b1]
    have := mul_le_mul_of_nonneg_right a1 (mul_pos hp0 hp0).le
    nlinarith
  have n2 : n < (2 : ℚ) ^ 33 * 2 ^ 33 := by
    rw [hn, ← b2]
    have := mul_lt_mul_of_pos_right a2 (mul_pos hp0 hp0)
    nlinarith
  have n0 : (0 : ℚ) ≤ n := le_trans (by positivity) n1
  have hfl : ((n.floor.toNat : ℕ) : ℚ) = ((n.floor : ℤ) : ℚ) := by
    have : ((n.floor.toNat : ℕ) : ℤ) = n.floor := Int.toNat_of_nonneg (Int.floor_nonneg.2 n0)
    exact_mod_cast this
  have f1 : ((n.floor.toNat : ℕ) : ℚ) ≤ n := by rw [hfl]; exact Int.floor_le n
  have f2 : n < ((n.floor.toNat : ℕ) : ℚ) + 1 := by rw [hfl]; exact Int.lt_floor_add_one n
  obtain ⟨N, hN⟩ : ∃ N, N = n.floor.toNat := ⟨_, rfl⟩
  obtain ⟨r, hr⟩ : ∃ r, r = isqrtLoop N 34 0 := ⟨_, rfl⟩
  rw [← hN] at f1 f2
  have hN66 : N < (0 + 2 ^ 34) * (0 + 2 ^ 34) := by
    have : (N : ℚ) < (0 + 2 ^ 34) * (0 + 2 ^ 34) := by
      refine lt_of_le_of_lt f1 (lt_trans n2 (by norm_num))
    exact_mod_cast this
  obtain ⟨r1, r2⟩ := isqrtLoop_spec N 34 0 (by omega) hN66
  rw [← hr] at r1 r2
  have r1' : (r : ℚ) * r ≤ n := le_trans (by exact_mod_cast r1) f1
  have r2' : n < ((r : ℚ) + 1) * (r + 1) := by
    have : (N : ℚ) + 1 ≤ ((r : ℚ) + 1) * (r + 1) := by exact_mod_cast r2
    linarith
  have r3 : (2 : ℚ) ^ 32 ≤ r := by
    by_contra hc
    have hlt : r < 2 ^ 32 := by
      have : (r : ℚ) < 2 ^ 32 := not_le.1 hc
      exact_mod_cast this
    have : ((r : ℚ) + 1) ≤ 2 ^ 32 := by exact_mod_cast hlt
    nlinarith
  have hs : f32Sqrt q = f32Round ((if (r * r : Nat) = n then (r : Rat) else (r : Rat) + 1 / 2) / p) := by
    have hpp : pow2 (32 - ilog2 q / 2) = p := by rw [pow2_eq, ← he, ← hp]
    rw [f32Sqrt, if_neg (not_le.2 hq)]
    dsimp only
    rw [hpp, ← hn, ← hN, ← hr]
  refine ⟨e, r, if (r * r : Nat) = n then (r : Rat) else (r : Rat) + 1 / 2, a1, ?_, ?_, r3, ?_, ?_⟩
  · rw [← hp, ← hn]; exact r1'
  · rw [← hp, ← hn]; exact r2'
  · rw [← hp, ← hn]
    split
    · rename_i h
      left
      refine ⟨rfl, ?_⟩
      rw [← h]; push_cast; rfl
    · exact Or.inr rfl
  · rw [← hp]; exact hs

theorem f32Round_ge_pow (q : ℚ) (hq : 0 < q) (e : ℤ) (h : (2 : ℚ) ^ e ≤ q) : (2 : ℚ) ^ e ≤ f32Round q := by
  have h2 := lt_ilog2 q hq
  have he : e ≤ ilog2 q := by
    have := (zpow_lt_zpow_iff_right₀ (by norm_num : (1 : ℚ) < 2)).1 (lt_of_le_of_lt h h2)
    omega
  rw [f32Round_pos_eq q hq, pow2_eq]
  have h3 := (f32_significand q hq).1
  have h4 : (2 : ℚ) ^ 23 ≤ ((roundHalfEven (q / pow2 (ilog2 q - 23)) : ℤ) : ℚ) := by exact_mod_cast h3
  rw [← pow2_eq (ilog2 q - 23)]
  have hu : 0 < pow2 (ilog2 q - 23) := pow2_pos _
  refine le_trans ?_ (mul_le_mul_of_nonneg_right h4 hu.le)
  rw [pow2_eq, ← zpow_natCast (2 : ℚ) 23, ← zpow_add₀ (by norm_num)]
  exact zpow_le_zpow_right₀ (by norm_num) (by push_cast; omega)

theorem isF32_pow (e : ℤ) : IsF32 ((2 : ℚ) ^ e) := ⟨1, e, by norm_num, by simp⟩

theorem isF32_nonneg {x : ℚ} (h : IsF32 x) : 0 ≤ x := by
  obtain ⟨m, e, -, rfl⟩ := h
  positivity

/-- `f32Sqrt` is the root, correctly rounded: the root lies on its side of the midpoint to every other value of
`f32`. -/
theorem f32Sqrt_nearest (q : ℚ) (hq : 0 < q) (y : ℚ) (hy : IsF32 y) :
    (f32Sqrt q < y → q ≤ ((f32Sqrt q + y) / 2) ^ 2) ∧ (y < f32Sqrt q → ((f32Sqrt q + y) / 2) ^ 2 ≤ q) := by
  obtain ⟨e, r, v, a1, r1, r2, r3, hv, hs⟩ := f32Sqrt_eq q hq
  have hp0 : (0 : ℚ) < 2 ^ (32 - e) := by positivity
  have hpe : (2 : ℚ) ^ (32 - e) * 2 ^ e = 2 ^ 32 := by
    rw [← zpow_add₀ (by norm_num), show 32 - e + e = ((32 : ℕ) : ℤ) by push_cast; ring, zpow_natCast]
  have hpg : (2 : ℚ) ^ (e - 23) * 2 ^ (32 - e) = 2 ^ 9 := by
    rw [← zpow_add₀ (by norm_num), show e - 23 + (32 - e) = ((9 : ℕ) : ℤ) by push_cast; ring, zpow_natCast]
  generalize (2 : ℚ) ^ (32 - e) = p at *
  have hv1 : (r : ℚ) ≤ v := by rcases hv with ⟨rfl, -⟩ | rfl <;> linarith
  have hw : (2 : ℚ) ^ e ≤ v / p := by
    rw [le_div_iff₀ hp0, mul_comm, hpe]; linarith
  have hw0 : 0 < v / p := lt_of_lt_of_le (two_zpow_pos e) hw
  obtain ⟨x, hx⟩ : ∃ x, x = f32Round (v / p) := ⟨_, rfl⟩
  rw [hs, ← hx]
  have hxF : IsF32 x := by rw [hx]; exact f32Round_isF32 _
  have hxe : (2 : ℚ) ^ e ≤ x := by rw [hx]; exact f32Round_ge_pow _ hw0 e hw
  have hgrid : ∀ z, IsF32 z → (2 : ℚ) ^ e ≤ z → ∃ k : ℕ, z * p = 2 * k := by
    intro z hz hze
    rcases isF32_cases z hz e with ⟨k, rfl⟩ | h
    · refine ⟨k * 2 ^ 8, ?_⟩
      rw [mul_assoc, hpg]; push_cast; ring
    · linarith
  have hmid : ∀ z, IsF32 z → (2 : ℚ) ^ e ≤ z → ∃ M : ℕ, (x + z) / 2 * p = M := by
    intro z hz hze
    obtain ⟨k1, h1⟩ := hgrid x hxF hxe
    obtain ⟨k2, h2⟩ := hgrid z hz hze
    refine ⟨k1 + k2, ?_⟩
    push_cast
    linarith
  have hnear : ∀ z, IsF32 z → |x - v / p| ≤ |z - v / p| := by
    intro z hz; rw [hx]; exact f32Round_nearest _ hw0.le z hz
  have hscale : ∀ m : ℚ, m ^ 2 = (m * p) * (m * p) / (p * p) := by
    intro m; field_simp
  have hqq : q = q * (p * p) / (p * p) := by field_simp
  constructor
  · intro hlt
    obtain ⟨M, hM⟩ := hmid y hy (le_trans hxe hlt.le)
    have h1 : v / p ≤ (x + y) / 2 := by
      by_contra hc
      have hc := not_le.1 hc
      have hn := hnear y hy
      rw [abs_of_nonpos (by linarith : x - v / p ≤ 0)] at hn
      rcases abs_cases (y - v / p) with ⟨h, -⟩ | ⟨h, -⟩ <;> rw [h] at hn <;> linarith
    have h2 : v ≤ M := by
      rw [← hM]; rw [div_le_iff₀ hp0] at h1; exact h1
    have h3 : q * (p * p) ≤ (M : ℚ) * M := by
      rcases hv with ⟨rfl, hv⟩ | rfl
      · rw [← hv]
        exact mul_self_le_mul_self (by positivity) h2
      · have : (r : ℚ) + 1 ≤ M := by
          have : (r : ℚ) < M := by linarith
          exact_mod_cast this
        refine le_trans r2.le (mul_self_le_mul_self (by positivity) this)
    rw [hscale, hM, hqq]
    have : (0 : ℚ) < p * p := by positivity
    gcongr
  · have main : ∀ z, IsF32 z → (2 : ℚ) ^ e ≤ z → z < x → ((x + z) / 2) ^ 2 ≤ q := by
      intro z hz hze hlt
      obtain ⟨M, hM⟩ := hmid z hz hze
      have h1 : (x + z) / 2 ≤ v / p := by
        by_contra hc
        have hc := not_le.1 hc
        have hn := hnear z hz
        rw [abs_of_nonneg (by linarith : 0 ≤ x - v / p)] at hn
        rcases abs_cases (z - v / p) with ⟨h, -⟩ | ⟨h, -⟩ <;> rw [h] at hn <;> linarith
      have h2 : (M : ℚ) ≤ v := by
        rw [← hM]; rw [le_div_iff₀ hp0] at h1; exact h1
      have h3 : (M : ℚ) ≤ r := by
        rcases hv with ⟨rfl, -⟩ | rfl
        · exact h2
        · have : (M : ℚ) < r + 1 := by linarith
          have : M < r + 1 := by exact_mod_cast this
          exact_mod_cast Nat.lt_succ_iff.1 this
      have h4 : (M : ℚ) * M ≤ q * (p * p) := le_trans (mul_self_le_mul_self (by positivity) h3) r1
      rw [hscale, hM]
      have hpp : (0 : ℚ) < p * p := by positivity
      rw [div_le_iff₀ hpp]
      exact h4
    intro hlt
    have hy0 := isF32_nonneg hy
    by_cases hye : (2 : ℚ) ^ e ≤ y
    · exact main y hy hye hlt
    · have hye := not_le.1 hye
      have h0 : 0 ≤ (x + y) / 2 := by have := two_zpow_pos e; linarith
      rcases hxe.eq_or_lt with h | h
      · refine le_trans ?_ a1
        rw [pow_two]
        exact mul_self_le_mul_self h0 (by linarith)
      · refine le_trans ?_ (main _ (isF32_pow e) (le_refl _) h)
        rw [pow_two, pow_two]
        exact mul_self_le_mul_self h0 (by linarith)

theorem f32Sqrt_isF32 (q : ℚ) : IsF32 (f32Sqrt q) := by
  by_cases hq : 0 < q
  · obtain ⟨e, r, v, -, -, -, -, -, hs⟩ := f32Sqrt_eq q hq
    rw [hs]; exact f32Round_isF32 _
  · rw [f32Sqrt, if_pos (not_lt.1 hq)]
    exact ⟨0, 0, by norm_num, by simp⟩

end Ribzip2
