import Verif.Spec.Ieee
import Verif.Proofs.IeeeStream
/- `F32.round` is the rounding of IEEE 754. -/
namespace Ribzip2
open Spec

/-- The exponent of the first significant bit. -/
def lead (a : ℚ) : ℤ := max (ilog2 a) (-126)

theorem lead_facts (a : ℚ) (ha : 0 < a) :
    -126 ≤ lead a ∧ a < 2 ^ (lead a + 1) ∧ (lead a = -126 ∨ (2 : ℚ) ^ lead a ≤ a) := by
  have h1 := ilog2_le a ha
  rw [pow2_eq] at h1
  have h2 := lt_ilog2 a ha
  refine ⟨le_max_right _ _, h2.trans_le (zpow_le_of (by unfold lead; omega)), ?_⟩
  rcases le_total (ilog2 a) (-126) with h | h
  · exact Or.inl (max_eq_right h)
  · right
    rw [lead, max_eq_left h]
    exact h1

/-- The unit of the last place. -/
theorem ulp_facts (a : ℚ) (ha : 0 < a) : a / 2 ^ (lead a - 23) < 2 ^ 24 ∧ 0 < a / 2 ^ (lead a - 23) ∧
    (lead a = -126 ∨ 2 ^ 23 ≤ a / 2 ^ (lead a - 23)) := by
  obtain ⟨h1, h2, h3⟩ := lead_facts a ha
  have hu := two_zpow_pos (lead a - 23)
  have e1 : (2 : ℚ) ^ (lead a + 1) = 2 ^ 24 * 2 ^ (lead a - 23) := by
    rw [← zpow_natCast (2 : ℚ) 24, ← zpow_add₀ (by norm_num)]; congr 1; push_cast; ring
  have e2 : (2 : ℚ) ^ (lead a) = 2 ^ 23 * 2 ^ (lead a - 23) := by
    rw [← zpow_natCast (2 : ℚ) 23, ← zpow_add₀ (by norm_num)]; congr 1; push_cast; ring
  refine ⟨by rw [div_lt_iff₀ hu, ← e1]; exact h2, by positivity, ?_⟩
  rcases h3 with h3 | h3
  · exact Or.inl h3
  · right
    rw [le_div_iff₀ hu, ← e2]
    exact h3

theorem sig_facts (a : ℚ) (ha : 0 < a) : roundHalfEven (a / 2 ^ (lead a - 23)) ≤ 2 ^ 24 ∧
    0 ≤ roundHalfEven (a / 2 ^ (lead a - 23)) ∧ (lead a = -126 ∨ 2 ^ 23 ≤ roundHalfEven (a / 2 ^ (lead a - 23))) := by
  obtain ⟨h1, h2, h3⟩ := ulp_facts a ha
  refine ⟨roundHalfEven_le_int _ _ (by push_cast; exact h1.le), roundHalfEven_mono_int _ _ (by push_cast; exact h2.le), ?_⟩
  rcases h3 with h3 | h3
  · exact Or.inl h3
  · exact Or.inr (roundHalfEven_mono_int _ _ (by push_cast; exact h3))

/-- The rounded magnitude. -/
def mag (a : ℚ) : ℚ := (roundHalfEven (a / 2 ^ (lead a - 23)) : ℚ) * 2 ^ (lead a - 23)

theorem mag_nonneg (a : ℚ) (ha : 0 < a) : 0 ≤ mag a := by
  have h := (sig_facts a ha).2.1
  have h2 : (0 : ℚ) ≤ (roundHalfEven (a / 2 ^ (lead a - 23)) : ℚ) := by exact_mod_cast h
  exact mul_nonneg h2 (two_zpow_pos _).le

theorem round_eq (q : ℚ) (hq : q ≠ 0) :
    F32.round q = if (2 : ℚ) ^ (128 : ℤ) ≤ mag |q| then F32.inf (decide (q < 0))
      else F32.num (if q < 0 then -(mag |q|) else mag |q|) := by
  have e : (if q < 0 then -q else q) = |q| := by
    split
    · rename_i h; rw [abs_of_neg h]
    · rename_i h; rw [abs_of_nonneg (not_lt.1 h)]
  unfold F32.round
  rw [if_neg hq]
  dsimp only
  rw [e, pow2_eq, pow2_eq]
  rfl

theorem zpow_lt_iff {a b : ℤ} : (2 : ℚ) ^ a < 2 ^ b ↔ a < b := zpow_lt_zpow_iff_right₀ (by norm_num)

theorem mag_sig (a : ℚ) (ha : 0 < a) (h : mag a < 2 ^ (128 : ℤ)) : lead a ≤ 127 ∧
    (roundHalfEven (a / 2 ^ (lead a - 23)) = 2 ^ 24 → lead a ≤ 126) := by
  obtain ⟨h1, h2, h3⟩ := sig_facts a ha
  have e2 : (2 : ℚ) ^ (lead a) = 2 ^ 23 * 2 ^ (lead a - 23) := by
    rw [← zpow_natCast (2 : ℚ) 23, ← zpow_add₀ (by norm_num)]; congr 1; push_cast; ring
  have e1 : (2 : ℚ) ^ (lead a + 1) = 2 ^ 24 * 2 ^ (lead a - 23) := by
    rw [← zpow_natCast (2 : ℚ) 24, ← zpow_add₀ (by norm_num)]; congr 1; push_cast; ring
  have hu := two_zpow_pos (lead a - 23)
  unfold mag at h
  generalize roundHalfEven (a / 2 ^ (lead a - 23)) = R at *
  constructor
  · rcases h3 with h3 | h3
    · omega
    · have h4 : (2 : ℚ) ^ 23 ≤ (R : ℚ) := by exact_mod_cast h3
      have : (2 : ℚ) ^ lead a < 2 ^ (128 : ℤ) := by
        rw [e2]
        exact (mul_le_mul_of_nonneg_right h4 hu.le).trans_lt h
      have := zpow_lt_iff.1 this
      omega
  · intro hR
    have h4 : (R : ℚ) = 2 ^ 24 := by rw [hR]; norm_num
    rw [h4, ← e1] at h
    have := zpow_lt_iff.1 h
    omega

theorem mag_isBinary32 (a : ℚ) (ha : 0 < a) (h : mag a < 2 ^ (128 : ℤ)) : IsBinary32 (mag a) := by
  obtain ⟨h1, h2, h3⟩ := sig_facts a ha
  obtain ⟨l1, l2⟩ := mag_sig a ha h
  have l3 := (lead_facts a ha).1
  have h0 := mag_nonneg a ha
  unfold IsBinary32
  rw [abs_of_nonneg h0]
  unfold mag
  generalize roundHalfEven (a / 2 ^ (lead a - 23)) = R at *
  obtain ⟨n, rfl⟩ := Int.eq_ofNat_of_zero_le h2
  by_cases hR : (n : ℤ) = 2 ^ 24
  · have := l2 hR
    refine ⟨2 ^ 23, lead a - 22, by norm_num, by omega, by omega, ?_⟩
    have e : (2 : ℚ) ^ (lead a - 22) = 2 * 2 ^ (lead a - 23) := by
      rw [show lead a - 22 = 1 + (lead a - 23) by ring, zpow_add₀ (by norm_num), zpow_one]
    have hn : (((n : ℤ) : ℚ)) = 2 ^ 24 := by rw [hR]; norm_num
    rw [hn, e]
    push_cast
    ring
  · refine ⟨n, lead a - 23, ?_, by omega, by omega, by push_cast; rfl⟩
    have : (n : ℤ) < 2 ^ 24 := lt_of_le_of_ne h1 hR
    exact_mod_cast this

/-- A finite number is a multiple of the unit, or lies below the leading power of two. -/
theorem binary32_cases (a : ℚ) (ha : 0 < a) (y : ℚ) (hy : IsBinary32 y) :
    (∃ z : ℤ, y = z * 2 ^ (lead a - 23)) ∨ (y < 2 ^ lead a ∧ (2 : ℚ) ^ lead a ≤ a) := by
  obtain ⟨m, e, hm, he1, he2, h⟩ := hy
  obtain ⟨l1, l2, l3⟩ := lead_facts a ha
  by_cases hc : lead a - 23 ≤ e
  · left
    obtain ⟨n, hn⟩ := Int.eq_ofNat_of_zero_le (show 0 ≤ e - (lead a - 23) by omega)
    have e1 : (2 : ℚ) ^ e = 2 ^ n * 2 ^ (lead a - 23) := by
      rw [← zpow_natCast (2 : ℚ) n, ← zpow_add₀ (by norm_num)]
      congr 1
      omega
    rcases abs_choice y with h' | h'
    · refine ⟨m * 2 ^ n, ?_⟩
      rw [← h', h, e1]; push_cast; ring
    · refine ⟨-(m * 2 ^ n), ?_⟩
      rw [h', e1] at h
      push_cast
      linarith
  · right
    refine ⟨?_, ?_⟩
    · have h4 : (m : ℚ) < 2 ^ 24 := by exact_mod_cast hm
      have h5 : (2 : ℚ) ^ 24 * 2 ^ e = 2 ^ (24 + e) := by
        rw [← zpow_natCast (2 : ℚ) 24, ← zpow_add₀ (by norm_num)]; norm_cast
      calc y ≤ |y| := le_abs_self y
        _ = m * 2 ^ e := h
        _ < 2 ^ 24 * 2 ^ e := mul_lt_mul_of_pos_right h4 (two_zpow_pos e)
        _ = 2 ^ (24 + e) := h5
        _ ≤ 2 ^ lead a := zpow_le_of (by omega)
    · rcases l3 with l3 | l3
      · omega
      · exact l3

theorem mag_key (a : ℚ) (z : ℤ) : |mag a - a| ≤ |(z : ℚ) * 2 ^ (lead a - 23) - a| := by
  have hu := two_zpow_pos (lead a - 23)
  have h := roundHalfEven_nearest (a / 2 ^ (lead a - 23)) z
  have e : ∀ t : ℚ, t * 2 ^ (lead a - 23) - a = (t - a / 2 ^ (lead a - 23)) * 2 ^ (lead a - 23) := by
    intro t
    rw [sub_mul, div_mul_cancel₀ _ hu.ne']
  unfold mag
  rw [e, e, abs_mul, abs_mul]
  exact mul_le_mul_of_nonneg_right h (abs_nonneg _)

theorem pow_lead (a : ℚ) : (2 : ℚ) ^ (lead a) = ((2 ^ 23 : ℤ) : ℚ) * 2 ^ (lead a - 23) := by
  have e : ((2 ^ 23 : ℤ) : ℚ) = 2 ^ (23 : ℤ) := by norm_num
  rw [e, ← zpow_add₀ (by norm_num)]
  congr 1
  ring

theorem mag_nearest (a : ℚ) (ha : 0 < a) (y : ℚ) (hy : IsBinary32 y) : |mag a - a| ≤ |y - a| := by
  rcases binary32_cases a ha y hy with ⟨z, rfl⟩ | ⟨h1, h2⟩
  · exact mag_key a z
  · have h3 := mag_key a (2 ^ 23)
    rw [← pow_lead a, abs_sub_comm, abs_sub_comm _ a, abs_of_nonneg (by linarith : 0 ≤ a - 2 ^ lead a)] at h3
    rw [abs_sub_comm, abs_sub_comm y, abs_of_pos (by linarith : 0 < a - y)]
    linarith

/-- Ties go to the even significand. -/
theorem mag_tie (a : ℚ) (ha : 0 < a) (y : ℚ) (hy : IsBinary32 y) (hne : y ≠ mag a)
    (h : |mag a - a| = |y - a|) : EvenBinary32 (mag a) := by
  have hu := two_zpow_pos (lead a - 23)
  obtain ⟨s1, s2, s3⟩ := sig_facts a ha
  have l3 := (lead_facts a ha).1
  have h0 := mag_nonneg a ha
  have hev : roundHalfEven (a / 2 ^ (lead a - 23)) % 2 = 0 := by
    have e : ∀ t : ℚ, t * 2 ^ (lead a - 23) - a = (t - a / 2 ^ (lead a - 23)) * 2 ^ (lead a - 23) := by
      intro t
      rw [sub_mul, div_mul_cancel₀ _ hu.ne']
    have key : ∀ z : ℤ, (z : ℚ) * 2 ^ (lead a - 23) ≠ mag a → |mag a - a| = |(z : ℚ) * 2 ^ (lead a - 23) - a| →
        roundHalfEven (a / 2 ^ (lead a - 23)) % 2 = 0 := by
      intro z hz1 hz2
      apply roundHalfEven_even _ z
      · intro hc
        apply hz1
        rw [hc]
        rfl
      · unfold mag at hz2
        rw [e, e, abs_mul, abs_mul] at hz2
        exact mul_right_cancel₀ (abs_pos.2 hu.ne').ne' hz2
    rcases binary32_cases a ha y hy with ⟨z, rfl⟩ | ⟨h1, h2⟩
    · exact key z hne h
    · exfalso
      have h3 := mag_key a (2 ^ 23)
      rw [← pow_lead a, h, abs_sub_comm, abs_sub_comm _ a, abs_of_pos (by linarith : 0 < a - y),
        abs_of_nonneg (by linarith : 0 ≤ a - 2 ^ lead a)] at h3
      linarith
  unfold EvenBinary32
  rw [abs_of_nonneg h0]
  unfold mag
  generalize roundHalfEven (a / 2 ^ (lead a - 23)) = R at *
  obtain ⟨k, hk⟩ : ∃ k : ℕ, R = 2 * k := ⟨(R / 2).toNat, by omega⟩
  subst hk
  refine ⟨k, lead a - 23, ?_, by omega, ?_, by push_cast; rfl⟩
  · have : 2 * (k : ℤ) ≤ 2 ^ 24 := s1
    have : (k : ℤ) ≤ 2 ^ 23 := by omega
    exact_mod_cast this
  · rcases s3 with s3 | s3
    · left; omega
    · right
      have : (2 : ℤ) ^ 22 ≤ k := by omega
      exact_mod_cast this

theorem roundHalfEven_up (x : ℚ) (k : ℤ) (h : ((2 * k : ℤ) : ℚ) - 1 / 2 ≤ x) : 2 * k ≤ roundHalfEven x := by
  by_contra hc
  have h1 := roundHalfEven_err x
  have h2 := roundHalfEven_nearest x (2 * k)
  have h3 : roundHalfEven x ≤ 2 * k - 1 := by omega
  have h4 : (roundHalfEven x : ℚ) ≤ ((2 * k : ℤ) : ℚ) - 1 := by exact_mod_cast h3
  have h5 := (abs_le.1 h1).1
  have h6 : (roundHalfEven x : ℚ) = ((2 * k : ℤ) : ℚ) - 1 := by linarith
  have h7 : x = ((2 * k : ℤ) : ℚ) - 1 / 2 := by linarith
  have h8 : roundHalfEven x % 2 = 0 := by
    apply roundHalfEven_even x (2 * k) (by omega)
    rw [h6, h7]
    have e1 : ((2 * k : ℤ) : ℚ) - 1 - (((2 * k : ℤ) : ℚ) - 1 / 2) = -(1 / 2) := by ring
    have e2 : ((2 * k : ℤ) : ℚ) - (((2 * k : ℤ) : ℚ) - 1 / 2) = 1 / 2 := by ring
    rw [e1, e2, abs_neg]
  have h9 : roundHalfEven x = 2 * k - 1 := by exact_mod_cast h6
  omega

/-- Overflow, exactly. -/
theorem mag_overflow (a : ℚ) (ha : 0 < a) : (2 : ℚ) ^ (128 : ℤ) ≤ mag a ↔ (2 : ℚ) ^ (128 : ℤ) - 2 ^ (103 : ℤ) ≤ a := by
  obtain ⟨l1, l2, l3⟩ := lead_facts a ha
  obtain ⟨s1, s2, s3⟩ := sig_facts a ha
  have hu := two_zpow_pos (lead a - 23)
  have hp := pow_lead a
  have p1 : (2 : ℚ) ^ (104 : ℤ) = 2 * 2 ^ (103 : ℤ) := by
    rw [show (104 : ℤ) = 1 + 103 by norm_num, zpow_add₀ (by norm_num), zpow_one]
  have p2 : (2 : ℚ) ^ (128 : ℤ) = 2 ^ 24 * 2 ^ (104 : ℤ) := by
    rw [← zpow_natCast (2 : ℚ) 24, ← zpow_add₀ (by norm_num)]; norm_num
  have p3 : (2 : ℚ) ^ (127 : ℤ) = 2 ^ 23 * 2 ^ (104 : ℤ) := by
    rw [← zpow_natCast (2 : ℚ) 23, ← zpow_add₀ (by norm_num)]; norm_num
  have p4 := two_zpow_pos 103
  have p5 := two_zpow_pos 104
  rcases lt_trichotomy (lead a) 127 with hl | hl | hl
  · have h1 : a < 2 ^ (127 : ℤ) := l2.trans_le (zpow_le_of (by omega))
    have h2 : mag a ≤ 2 ^ (127 : ℤ) := by
      have hs : (roundHalfEven (a / 2 ^ (lead a - 23)) : ℚ) ≤ 2 ^ 24 := by exact_mod_cast s1
      have e1 : (2 : ℚ) ^ 24 * 2 ^ (lead a - 23) = 2 ^ (lead a + 1) := by
        rw [← zpow_natCast (2 : ℚ) 24, ← zpow_add₀ (by norm_num)]; congr 1; push_cast; ring
      calc mag a ≤ 2 ^ 24 * 2 ^ (lead a - 23) := mul_le_mul_of_nonneg_right hs hu.le
        _ = 2 ^ (lead a + 1) := e1
        _ ≤ 2 ^ (127 : ℤ) := zpow_le_of (by omega)
    have h3 : (2 : ℚ) ^ (127 : ℤ) < 2 ^ (128 : ℤ) := zpow_lt_iff.2 (by norm_num)
    constructor
    · intro h; linarith
    · intro h
      exfalso
      rw [p2] at h
      rw [p3] at h1
      linarith
  · have hm : mag a = (roundHalfEven (a / 2 ^ (104 : ℤ)) : ℚ) * 2 ^ (104 : ℤ) := by
      unfold mag
      rw [hl]
      norm_num
    rw [hm, p2]
    have hd : a / 2 ^ (104 : ℤ) * 2 ^ (104 : ℤ) = a := div_mul_cancel₀ _ p5.ne'
    generalize a / 2 ^ (104 : ℤ) = x at *
    constructor
    · intro h
      have h1 : (2 : ℚ) ^ 24 ≤ (roundHalfEven x : ℚ) := le_of_mul_le_mul_right h p5
      have h2 := (abs_le.1 (roundHalfEven_err x)).2
      have h3 : (2 : ℚ) ^ 24 - 1 / 2 ≤ x := by linarith
      have := mul_le_mul_of_nonneg_right h3 p5.le
      rw [hd] at this
      linarith
    · intro h
      have h1 : (2 : ℚ) ^ 24 - 1 / 2 ≤ x := by
        by_contra hc
        have := mul_lt_mul_of_pos_right (not_le.1 hc) p5
        rw [hd] at this
        linarith
      have h2 := roundHalfEven_up x (2 ^ 23) (by push_cast; linarith)
      have h3 : (2 : ℚ) ^ 24 ≤ (roundHalfEven x : ℚ) := by
        have : (2 : ℤ) ^ 24 ≤ roundHalfEven x := by omega
        exact_mod_cast this
      exact mul_le_mul_of_nonneg_right h3 p5.le
  · have h1 : (2 : ℚ) ^ lead a ≤ a := by
      rcases l3 with l3 | l3
      · omega
      · exact l3
    have h2 : (2 : ℚ) ^ (128 : ℤ) ≤ 2 ^ lead a := zpow_le_of (by omega)
    have h3 : (2 : ℚ) ^ lead a ≤ mag a := by
      rw [hp]
      apply mul_le_mul_of_nonneg_right _ hu.le
      rcases s3 with s3 | s3
      · omega
      · exact_mod_cast s3
    constructor
    · intro _; linarith
    · intro _; linarith

/-- The two main loops agree when the blocks they write agree. -/
theorem flushLoop_congr (g1 g2 : Work → Res (List Bit)) (ws : List Work) (h : ∀ w ∈ ws, g1 w = g2 w) (bw : BitWriter)
    (crc : BitVec 32) : flushLoop g1 ws bw crc = flushLoop g2 ws bw crc := by
  induction ws generalizing bw crc with
  | nil => rfl
  | cons w ws ih =>
    have e : flushOne g1 w bw crc = flushOne g2 w bw crc := by unfold flushOne; rw [h w (by simp)]
    simp only [flushLoop, e]
    split
    · exact ih (fun x hx => h x (by simp [hx])) _ _
    · rfl

theorem mainLoop_congr (g1 g2 : Work → Res (List Bit))
    (h : ∀ b : List UInt8, b ≠ [] → (rle1Encode b).length ≤ 900005 → g1 (workOf b) = g2 (workOf b)) (ft : Bool)
    (t fuel : Nat) (es : List REvent) (fin : Bool) (bw : BitWriter) (crc : BitVec 32) :
    mainLoop g1 ft t fuel es fin bw crc = mainLoop g2 ft t fuel es fin bw crc := by
  induction fuel generalizing es fin bw crc with
  | zero => rfl
  | succ fuel ih =>
    rw [mainLoop, mainLoop]
    split
    · rfl
    · obtain ⟨bs, es', fin', h1, h2⟩ := sendLoop_total ft t es fin
      rw [h1]
      dsimp only
      rw [flushLoop_congr g1 g2 (bs.map workOf) (by
        intro w hw
        obtain ⟨b, hb, rfl⟩ := List.mem_map.1 hw
        exact h b (h2 b hb).1 (h2 b hb).2)]
      split
      · exact ih _ _ _ _
      · rfl

theorem encodeStreamFuel32_eq (fuel : Nat) (r : Reader) (w : Writer) (t : Nat) (strategy : Strategy) :
    encodeStreamFuel32 fuel r w t strategy = encodeStreamFuel fuel euclid r w t strategy := by
  unfold encodeStreamFuel32 encodeStreamFuel
  have h := fun es bw => mainLoop_congr (fun work => generateBlockData32 strategy work.crc work.rleTotal)
    (fun work => generateBlockData euclid strategy work.crc work.rleTotal)
    (fun b hb hs => generateBlockData32_eq strategy _ (rle1Encode b) (by
      intro hc
      have := rle1Encode_ne_nil b hb
      exact this hc) (by omega)) r.failTail t fuel es false bw 0
  simp only [h]

theorem entry_isBinary32 (q : ℚ) (h : Entry q) : IsBinary32 q := by
  obtain ⟨h1, h2⟩ := h
  have h0 := h2.nonneg
  have h9 := h2.le
  obtain ⟨z, hz⟩ : ∃ z : ℕ, q = z * (2 : ℚ) ^ ((-15 : ℤ) - 23) := by
    rcases isF32_cases q h1 (-15) with h | h
    · exact h
    · rcases h2 with rfl | ⟨h2, -⟩
      · exact ⟨0, by simp⟩
      · exact absurd h2 (not_le.2 h)
  obtain ⟨m, e, hm, he⟩ := h1
  by_cases hm0 : q = 0
  · exact ⟨0, 0, by norm_num, by norm_num, by norm_num, by simp [hm0]⟩
  by_cases hl : e < -38
  · refine ⟨z, -38, ?_, by norm_num, by norm_num, ?_⟩
    · have h3 : (m : ℚ) < 2 ^ 24 := by exact_mod_cast hm
      have h4 : q < 2 ^ 24 * 2 ^ (-38 : ℤ) := by
        rw [he]
        calc (m : ℚ) * 2 ^ e < 2 ^ 24 * 2 ^ e := mul_lt_mul_of_pos_right h3 (two_zpow_pos e)
          _ ≤ 2 ^ 24 * 2 ^ (-38 : ℤ) := mul_le_mul_of_nonneg_left (zpow_le_of (by omega)) (by norm_num)
      rw [hz, show ((-15 : ℤ) - 23) = -38 by norm_num] at h4
      have h5 : (z : ℚ) < 2 ^ 24 := lt_of_mul_lt_mul_right h4 (two_zpow_pos _).le
      exact_mod_cast h5
    · rw [abs_of_nonneg h0, hz, show ((-15 : ℤ) - 23) = -38 by norm_num]
  · refine ⟨m, e, hm, by omega, ?_, by rw [abs_of_nonneg h0]; exact he⟩
    have hm1 : 1 ≤ m := by
      rcases Nat.eq_zero_or_pos m with rfl | h
      · simp at he; exact absurd he hm0
      · exact h
    have h3 : (1 : ℚ) ≤ m := by exact_mod_cast hm1
    have h4 : (2 : ℚ) ^ e ≤ 2 ^ (9 : ℤ) := by
      rw [he] at h9
      have := mul_le_mul_of_nonneg_right h3 (two_zpow_pos e).le
      linarith
    by_contra hc
    have := zpow_lt_iff.2 (show (9 : ℤ) < e by omega)
    linarith

theorem updateLoop_dims (d : ℕ) (l : List (List ℕ × UInt8)) (hl : ∀ x ∈ l, x.1.length = d) (centers : List (List ℚ))
    (sizes : List ℕ) (hc : ∀ c ∈ centers, c.length = d) (out : List (List ℚ)) (h : updateLoop l centers sizes = Res.ok out) :
    out.length = centers.length ∧ ∀ c ∈ out, c.length = d := by
  induction l generalizing centers sizes with
  | nil =>
    simp only [updateLoop, Res.ok.injEq] at h
    subst h
    exact ⟨rfl, hc⟩
  | cons q l ih =>
    obtain ⟨p, a⟩ := q
    rw [updateLoop] at h
    obtain ⟨k, k1, h⟩ := bind_eq_ok h
    obtain ⟨c, k2, h⟩ := bind_eq_ok h
    obtain ⟨cs, k3, h⟩ := bind_eq_ok h
    obtain ⟨ss, k4, h⟩ := bind_eq_ok h
    have hcm : c ∈ centers := by
      unfold idx at k2
      cases hg : centers[a.toNat]? with
      | none => rw [hg] at k2; simp [Res.ofOption] at k2
      | some x =>
        rw [hg, Res.ofOption_some, Res.ok.injEq] at k2
        subst k2
        exact List.mem_of_getElem? hg
    unfold setIdx at k3
    split at k3
    · rw [Res.ok.injEq] at k3
      subst k3
      have := ih (fun x hx => hl x (by simp [hx])) _ ss (by
        intro c' hc'
        rcases List.mem_or_eq_of_mem_set hc' with h' | rfl
        · exact hc c' h'
        · have hp := hl (p, a) (by simp)
          simp only at hp
          simp [updateCenter, hc c hcm, hp]) h
      simpa using this
    · simp at k3

/-- The centres keep their dimension. -/
theorem lloyd_dims (d nc : ℕ) (data : List (List ℕ)) (hd : ∀ p ∈ data, p.length = d) (it : ℕ) (centers : List (List ℚ))
    (hc : centers.length = nc) (hcd : ∀ c ∈ centers, c.length = d) (a : List UInt8) (out : List (List ℚ)) (a' : List UInt8)
    (h : lloyd euclid d nc data it centers a = Res.ok (out, a')) : ∀ c ∈ out, c.length = d := by
  induction it generalizing centers a with
  | zero =>
    simp only [lloyd, Res.ok.injEq, Prod.mk.injEq] at h
    rw [← h.1]; exact hcd
  | succ it ih =>
    rw [lloyd] at h
    obtain ⟨c1, k1, k2⟩ := bind_eq_ok h
    obtain ⟨u1, u2⟩ := updateLoop_dims d _ (fun x hx => hd _ (List.of_mem_zip hx).1) _ _ (by
      intro c hc
      obtain ⟨_, _, rfl⟩ := List.mem_map.1 hc
      simp) c1 k1
    exact ih c1 (by rw [u1]; simpa using hc) u2 _ k2

end Ribzip2
