import Verif.Proofs.Steps
import Verif.Props.Bwt
/- Property C77: block sorting takes linear time. -/
namespace Ribzip2
open Spec

/-! ### C77. The functions with names ending in `C` (Model/Steps.lean) are the functions of the model with a counter
that is increased by every execution of a loop body. -/

/-- **C77 (rotation).** The three nested loops that look for the rotation together run at most three times per byte. -/
theorem C77_rotation_is_linear (s : List UInt8) :
    ∃ f steps, duvalC s 0 = Res.ok (f, steps) ∧ duval s = Res.ok f ∧ steps ≤ 3 * s.length := by
  obtain ⟨f, h1, -⟩ := duval_spec s
  obtain ⟨c', e1, e2⟩ := duvalOuterC_eq s (s.length + 1) 0 0 0 f (Nat.zero_le _) h1
  exact ⟨f, c', e1, h1, by omega⟩

theorem buildSuffixArrayC_le (k : Nat) (s : List UInt8) (c : Nat) (h : s.length ≤ 2 ^ k) :
    ∃ sa steps, buildSuffixArrayC s c = Res.ok (sa, steps) ∧ buildSuffixArray s = Res.ok sa ∧
      steps ≤ c + 30 * s.length + 40 * k + 1577 ∧ sa.length = s.length + 1 := by
  have hb : ∀ x ∈ s.map UInt8.toNat, x < 256 := by
    intro x hx
    rw [List.mem_map] at hx
    obtain ⟨b, -, rfl⟩ := hx
    exact UInt8.toNat_lt b
  -- a smaller exponent that still fits
  obtain ⟨m, m1, m2, m3⟩ : ∃ m, m ≤ k ∧ m ≤ s.length ∧ s.length ≤ 2 ^ m := by
    by_cases hk : k ≤ s.length
    · exact ⟨k, Nat.le_refl _, hk, h⟩
    · exact ⟨s.length, by omega, Nat.le_refl _, Nat.le_of_lt Nat.lt_two_pow_self⟩
  obtain ⟨sa, c', h1, h2, ⟨l, rfl, h3, -⟩, h4⟩ := Sais.buildC_le m (s.length + 1) (s.map UInt8.toNat) 256 (c + s.length)
    hb (by simpa using m3) (by omega)
  rw [List.length_map] at h3 h4
  have hl : l.length = s.length + 1 := by rw [h3.length_eq, List.length_range]
  refine ⟨l, c' + l.length, ?_, ?_, by omega, hl⟩
  · rw [buildSuffixArrayC, h1, Res.ok_bind]
    dsimp only
    rw [unwrapAllC_eq, Sais.unwrapAll_map, Res.ok_bind, List.length_map]
  · rw [buildSuffixArray, h2, Res.ok_bind, Sais.unwrapAll_map]

/-- **C77 (suffix sort).** With its recursion and all comparisons of blocks, sorting the suffixes of `n ≤ 2 ^ k` bytes
takes at most `30 n + 40 k + 1577` steps, and the counted program computes what the program computes. -/
theorem C77_suffix_sort_is_linear (k : Nat) (s : List UInt8) (h : s.length ≤ 2 ^ k) :
    ∃ sa steps, buildSuffixArrayC s 0 = Res.ok (sa, steps) ∧ buildSuffixArray s = Res.ok sa ∧
      steps ≤ 30 * s.length + 40 * k + 1577 := by
  obtain ⟨sa, steps, h1, h2, h3, -⟩ := buildSuffixArrayC_le k s 0 h
  exact ⟨sa, steps, h1, h2, by omega⟩

/-- **C77.** The Burrows-Wheeler stage takes linear time on every block, whatever the bytes: at most
`37 n + 40 k + 1600` steps for `1 ≤ n ≤ 2 ^ k` bytes. -/
theorem C77_transform_is_linear (k : Nat) (s : List UInt8) (hne : s ≠ []) (h : s.length ≤ 2 ^ k) :
    ∃ r steps, bwtC s 0 = Res.ok (r, steps) ∧ bwt s = Res.ok r ∧ steps ≤ 37 * s.length + 40 * k + 1600 := by
  obtain ⟨f, d1, d2, -, -⟩ := duval_spec s
  have hf := d2 hne
  obtain ⟨c1, e1, e2⟩ := duvalOuterC_eq s (s.length + 1) 0 0 0 f (Nat.zero_le _) d1
  have hrot : (s.drop f ++ s.take f).length = s.length := by simp; omega
  obtain ⟨sa, c2, a1, a2, a3, a4⟩ := buildSuffixArrayC_le k (s.drop f ++ s.take f) (c1 + s.length) (by rw [hrot]; exact h)
  rw [hrot] at a3 a4
  obtain ⟨last, ptr, b1, -, -⟩ := C30_bwt_never_fails s hne
  have b2 := b1
  rw [bwt, rotateDuval, d1, Res.ok_bind, if_pos (Nat.le_of_lt hf), Res.pure_eq, Res.ok_bind] at b2
  dsimp only at b2
  rw [a2, Res.ok_bind] at b2
  obtain ⟨col, g1, g2⟩ := bind_is_ok.1 b2
  obtain ⟨d, g3, g4⟩ := bind_is_ok.1 g2
  rw [if_neg (by omega)] at g4
  obtain ⟨o, g5, g6⟩ := bind_is_ok.1 g4
  have hkept : (sa.filter fun x => decide (x < s.length)).length ≤ sa.length := List.length_filter_le _ _
  refine ⟨(last, ptr), c2 + sa.length + (sa.filter fun x => decide (x < s.length)).length + sa.length, ?_, b1, by omega⟩
  rw [bwtC, rotateDuvalC, duvalC, e1, Res.ok_bind]
  dsimp only
  rw [if_pos (Nat.le_of_lt hf), Res.pure_eq, Res.ok_bind]
  dsimp only
  rw [a1, Res.ok_bind]
  dsimp only
  rw [bwtColumnC_eq, g1, Res.ok_bind, Res.ok_bind]
  dsimp only
  rw [g3, Res.ok_bind, if_neg (by omega), g5, Res.ok_bind]
  simp only [Res.pure_eq, Res.ok.injEq] at g6 ⊢
  rw [g6]

/-- **C77**, without exponents: at most 77 steps per byte and 1600 more; for a whole block of the encoder, at most 37
steps per byte and 2400 more. -/
theorem C77_transform_is_linear_simple (s : List UInt8) (hne : s ≠ []) :
    ∃ r steps, bwtC s 0 = Res.ok (r, steps) ∧ bwt s = Res.ok r ∧ steps ≤ 77 * s.length + 1600 ∧
      (s.length ≤ 900005 → steps ≤ 37 * s.length + 2400) := by
  obtain ⟨r, steps, h1, h2, h3⟩ := C77_transform_is_linear s.length s hne (Nat.le_of_lt Nat.lt_two_pow_self)
  refine ⟨r, steps, h1, h2, by omega, fun hs => ?_⟩
  obtain ⟨r', steps', h1', -, h3'⟩ := C77_transform_is_linear 20 s hne (by omega)
  rw [h1'] at h1
  simp only [Res.ok.injEq, Prod.mk.injEq] at h1
  omega

/-- Counted runs: searching the rotation of "banana" takes 11 steps (the bound is 18), and sorting the suffixes of
`abababab` (with a recursion) over two letters takes 154. -/
example : duvalC [98, 97, 110, 97, 110, 97] 0 = Res.ok (5, 11) ∧
    (buildSuffixArrayRecC 9 [0, 1, 0, 1, 0, 1, 0, 1] 2 0 >>= fun r => Res.ok r.2) = Res.ok 154 := by
  decide +kernel

end Ribzip2
