import Verif.Model.Stats
import Mathlib.Data.Rat.Floor
import Mathlib.Algebra.Order.Field.Power
import Mathlib.Tactic.Linarith
import Mathlib.Tactic.Positivity
import Mathlib.Tactic.FieldSimp
import Mathlib.Tactic.NormNum
/- The number of selectors, computed in `f32`, is the number of groups of 50. -/
namespace Ribzip2

theorem pow2_eq (e : Int) : pow2 e = (2 : ℚ) ^ e := by
  unfold pow2
  split
  · rename_i h
    obtain ⟨n, rfl⟩ := Int.eq_ofNat_of_zero_le h
    simp
  · rename_i h
    obtain ⟨n, hn⟩ := Int.eq_ofNat_of_zero_le (show 0 ≤ -e by omega)
    have : e = -(n : Int) := by omega
    subst this
    simp

theorem ratFloor (q : ℚ) : q.floor = ⌊q⌋ := rfl

theorem roundHalfEven_int (z : Int) : roundHalfEven (z : ℚ) = z := by
  simp only [roundHalfEven, ratFloor, Int.floor_intCast, sub_self]
  rw [if_pos (by norm_num)]

theorem roundHalfEven_err (q : ℚ) : |(roundHalfEven q : ℚ) - q| ≤ 1 / 2 := by
  have h1 : (q.floor : ℚ) ≤ q := Int.floor_le q
  have h2 : q < (q.floor : ℚ) + 1 := Int.lt_floor_add_one q
  simp only [roundHalfEven]
  rw [abs_le]
  by_cases g1 : q - (q.floor : ℚ) < 1 / 2
  · rw [if_pos g1]; constructor <;> linarith
  · rw [if_neg g1]
    by_cases g2 : 1 / 2 < q - (q.floor : ℚ)
    · rw [if_pos g2]
      push_cast
      constructor <;> linarith
    · rw [if_neg g2]
      by_cases g3 : q.floor % 2 = 0
      · rw [if_pos g3]; constructor <;> linarith
      · rw [if_neg g3]
        push_cast
        constructor <;> linarith

theorem ilog2_le (q : ℚ) (hq : 0 < q) : pow2 (ilog2 q) ≤ q := by
  unfold ilog2
  dsimp only
  split
  · assumption
  · rw [pow2_eq]
    have hn : 0 < q.num := Rat.num_pos.2 hq
    have hd : 0 < q.den := q.den_pos
    obtain ⟨n, hn'⟩ := Int.eq_ofNat_of_zero_le hn.le
    have hnn : n ≠ 0 := by rintro rfl; rw [hn'] at hn; simp at hn
    have h1 : 2 ^ Nat.log2 n ≤ n := Nat.log2_self_le hnn
    have h2 : q.den < 2 ^ (Nat.log2 q.den + 1) := Nat.lt_log2_self
    have hq' : q = (n : ℚ) / q.den := by
      conv => lhs; rw [← Rat.num_div_den q, hn']
      simp
    rw [hn']
    simp only [Int.toNat_natCast]
    have h1' : (2 : ℚ) ^ Nat.log2 n ≤ n := by exact_mod_cast h1
    have h2' : (q.den : ℚ) ≤ 2 ^ (Nat.log2 q.den + 1) := by exact_mod_cast h2.le
    have hdq : (0 : ℚ) < q.den := by exact_mod_cast hd
    have e : (2 : ℚ) ^ ((Nat.log2 n : Int) - (Nat.log2 q.den : Int) - 1)
        = 2 ^ Nat.log2 n / 2 ^ (Nat.log2 q.den + 1) := by
      rw [sub_sub, zpow_sub₀ (by norm_num)]
      norm_cast
    rw [e]
    conv => rhs; rw [hq']
    exact div_le_div₀ (by positivity) h1' hdq h2'

theorem ilog2_le_of_lt (q : ℚ) (hq : 0 < q) (k : Int) (h : q < 2 ^ (k + 1)) : ilog2 q ≤ k := by
  have h1 := ilog2_le q hq
  rw [pow2_eq] at h1
  have := (zpow_lt_zpow_iff_right₀ (show (1 : ℚ) < 2 by norm_num)).1 (lt_of_le_of_lt h1 h)
  omega

theorem f32Round_exact (q : ℚ) (hq : 0 < q) (z : Int) (hz : q = z) (hlt : q < 2 ^ 24) : f32Round q = q := by
  have he := ilog2_le_of_lt q hq 23 (by exact_mod_cast hlt)
  obtain ⟨k, hk⟩ := Int.eq_ofNat_of_zero_le (show 0 ≤ 23 - ilog2 q by omega)
  unfold f32Round
  rw [if_neg (by linarith)]
  dsimp only
  rw [show ilog2 q - 23 = -(k : Int) by omega, pow2_eq, zpow_neg, zpow_natCast, div_inv_eq_mul]
  have : q * 2 ^ k = ((z * 2 ^ k : Int) : ℚ) := by rw [hz]; push_cast; rfl
  rw [this, roundHalfEven_int, ← this, mul_assoc, mul_inv_cancel₀ (by positivity), mul_one]

theorem f32Round_err (q : ℚ) (hq : 0 < q) (hlt : q < 2 ^ 15) : |f32Round q - q| ≤ 1 / 1024 := by
  have he := ilog2_le_of_lt q hq 14 (by exact_mod_cast hlt)
  unfold f32Round
  rw [if_neg (by linarith)]
  dsimp only
  rw [pow2_eq]
  have hu : (0 : ℚ) < 2 ^ (ilog2 q - 23) := by positivity
  have hu2 : (2 : ℚ) ^ (ilog2 q - 23) ≤ 1 / 512 := by
    have : (2 : ℚ) ^ (ilog2 q - 23) ≤ 2 ^ (-9 : Int) :=
      (zpow_le_zpow_iff_right₀ (by norm_num)).2 (by omega)
    refine this.trans (by norm_num)
  generalize (2 : ℚ) ^ (ilog2 q - 23) = u at hu hu2
  have h := roundHalfEven_err (q / u)
  rw [abs_le] at h ⊢
  have e : (roundHalfEven (q / u) : ℚ) * u - q = ((roundHalfEven (q / u) : ℚ) - q / u) * u := by
    rw [sub_mul, div_mul_cancel₀ _ hu.ne']
  rw [e]
  constructor <;> nlinarith [h.1, h.2]

theorem ratCeil (q : ℚ) : q.ceil = ⌈q⌉ := by
  rw [Rat.ceil_eq_neg_floor_neg, ratFloor, Int.floor_neg, neg_neg]

/-- symbol_statistics/mod.rs:56 for up to 2^20 symbols. -/
theorem selectorCount_eq (n : Nat) (h : n < 2 ^ 20) :
    (f32Div (f32OfNat n) 50).ceil.toNat = (n + 49) / 50 := by
  by_cases h0 : n = 0
  · subst h0
    simp [f32Div, f32OfNat, f32Round]
    rfl
  have hn : (0 : ℚ) < n := by exact_mod_cast Nat.pos_of_ne_zero h0
  have hlt : (n : ℚ) < 2 ^ 20 := by exact_mod_cast h
  have h1 : f32OfNat n = n := f32Round_exact n hn n (by simp) (hlt.trans (by norm_num))
  rw [f32Div, h1]
  have hq : (0 : ℚ) < n / 50 := by positivity
  have hq2 : (n : ℚ) / 50 < 2 ^ 15 := by
    rw [div_lt_iff₀ (by norm_num)]; refine hlt.trans (by norm_num)
  have key : ⌈f32Round ((n : ℚ) / 50)⌉ = (((n + 49) / 50 : Nat) : Int) := by
    by_cases hd : n % 50 = 0
    · obtain ⟨m, hm⟩ := Nat.dvd_of_mod_eq_zero hd
      have e : (n : ℚ) / 50 = ((m : Int) : ℚ) := by rw [hm]; push_cast; field_simp
      rw [f32Round_exact _ hq m e (hq2.trans (by norm_num)), e, Int.ceil_intCast]
      congr 1
      omega
    · have herr := f32Round_err _ hq hq2
      rw [abs_le] at herr
      have hdm := Nat.div_add_mod n 50
      have hmod : 1 ≤ n % 50 ∧ n % 50 ≤ 49 := by omega
      have e : (n : ℚ) = 50 * ((n / 50 : Nat) : ℚ) + ((n % 50 : Nat) : ℚ) := by exact_mod_cast hdm.symm
      have m1 : (1 : ℚ) ≤ ((n % 50 : Nat) : ℚ) := by exact_mod_cast hmod.1
      have m2 : ((n % 50 : Nat) : ℚ) ≤ 49 := by exact_mod_cast hmod.2
      have hc : (n + 49) / 50 = n / 50 + 1 := by omega
      rw [hc, Int.ceil_eq_iff]
      rw [show (((n / 50 + 1 : Nat) : Int) : ℚ) = ((n / 50 : Nat) : ℚ) + 1 by push_cast; rfl]
      generalize ((n / 50 : Nat) : ℚ) = a at *
      generalize ((n % 50 : Nat) : ℚ) = b at *
      generalize f32Round ((n : ℚ) / 50) = r at *
      rw [e] at herr
      constructor
      · have := herr.1
        linarith
      · have := herr.2
        linarith
  rw [ratCeil, key, Int.toNat_natCast]

end Ribzip2
