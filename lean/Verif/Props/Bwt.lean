import Verif.Proofs.BwtExact
import Verif.Proofs.SaisMain
/- Properties C30 to C33: Burrows-Wheeler transform, its inverse, suffix array, rotation step. -/
namespace Ribzip2
open Spec

/-- **C31.** `inverse_bwt` of the last column of the sorted rotations of `s` and of any row of the matrix
that holds `s` returns `s`; periodic strings, whose matrix has several such rows, included. -/
theorem C31_inverse_bwt (s last : List UInt8) (ptr : Nat) (h : IsBwt s last ptr) :
    inverseBwt last ptr = Res.ok s := inverseBwt_spec s last ptr h

/-- "banana" (98 97 110 97 110 97): column nnbaaa, row 3. -/
example : inverseBwt [110, 110, 98, 97, 97, 97] 3 = Res.ok [98, 97, 110, 97, 110, 97] :=
  C31_inverse_bwt _ _ _
    ⟨[[97, 98, 97, 110, 97, 110], [97, 110, 97, 98, 97, 110], [97, 110, 97, 110, 97, 98],
      [98, 97, 110, 97, 110, 97], [110, 97, 98, 97, 110, 97], [110, 97, 110, 97, 98, 97]],
      by decide +kernel, by decide +kernel, by decide, by decide⟩

/-- Every non-empty string has a transform. -/
theorem C31_transform_exists (s : List UInt8) (hne : s ≠ []) : ∃ last ptr, IsBwt s last ptr := by
  have hs := stableSort_sorted (fun x y : List UInt8 => decide (x ≤ y))
    (by intro a b; simp only [decide_eq_true_eq]; exact List.le_total a b)
    (by intro a b c; simp only [decide_eq_true_eq]; exact List.le_trans) (rotations s)
  have hp := stableSort_perm (fun x y : List UInt8 => decide (x ≤ y)) (rotations s)
  have hmem : s ∈ rotations s :=
    List.mem_map.2 ⟨0, List.mem_range.2 (List.length_pos_iff.2 hne), rotation_zero s⟩
  obtain ⟨ptr, hlt, e⟩ := List.mem_iff_getElem.1 (hp.mem_iff.2 hmem)
  exact ⟨_, ptr, _, hp, hs.imp (by simp), rfl, by rw [List.getElem?_eq_getElem hlt, e]⟩

/-- "banana" (98 97 110 97 110 97): column nnbaaa, row 3. -/
example : IsBwt [98, 97, 110, 97, 110, 97] [110, 110, 98, 97, 97, 97] 3 :=
  ⟨[[97, 98, 97, 110, 97, 110], [97, 110, 97, 98, 97, 110], [97, 110, 97, 110, 97, 98],
    [98, 97, 110, 97, 110, 97], [110, 97, 98, 97, 110, 97], [110, 97, 110, 97, 98, 97]],
    by decide +kernel, by decide +kernel, by decide, by decide⟩
/-- A periodic string, "abab", with either of its two rows. -/
example : IsBwt [97, 98, 97, 98] [98, 98, 97, 97] 0 ∧ IsBwt [97, 98, 97, 98] [98, 98, 97, 97] 1 :=
  ⟨⟨[[97, 98, 97, 98], [97, 98, 97, 98], [98, 97, 98, 97], [98, 97, 98, 97]],
    by decide +kernel, by decide +kernel, by decide, by decide⟩,
   ⟨[[97, 98, 97, 98], [97, 98, 97, 98], [98, 97, 98, 97], [98, 97, 98, 97]],
    by decide +kernel, by decide +kernel, by decide, by decide⟩⟩

/-! ### C33 -/

/-- What the rotation step really does, for every block: it rotates to the smallest non-empty suffix
of the block (not of the block repeated). -/
theorem C33_rotates_to_smallest_suffix (s : List UInt8) (hne : s ≠ []) :
    ∃ f, rotateDuval s = Res.ok (rotation s f, f) ∧ SmallestSuffixAt s f := by
  obtain ⟨f, h1, h2, -, h4⟩ := duval_spec s
  refine ⟨f, ?_, h2 hne, h4⟩
  have := h2 hne
  unfold rotateDuval
  rw [h1, Res.ok_bind, if_pos (by omega)]
  rfl

/-- "banana": the smallest suffix is the last "a", the block is rotated to "abanan". -/
example : rotateDuval [98, 97, 110, 97, 110, 97] = Res.ok ([97, 98, 97, 110, 97, 110], 5) := by decide +kernel

/-- **C33 is false**: for "baaa" the rotation chosen is "abaa", but "aaab" is smaller. -/
theorem C33_refuted : ∃ (s r : List UInt8) (f : Nat), rotateDuval s = Res.ok (r, f) ∧
    ¬ MinimalRotationAt s f ∧ ∃ k < s.length, rotation s k < r :=
  ⟨[98, 97, 97, 97], [97, 98, 97, 97], 3, by decide +kernel,
    fun h => absurd (h.2 1 (by decide)) (by decide +kernel), 1, by decide, by decide +kernel⟩

/-- **C33**, partial: the rotation chosen is minimal for every block whose smallest non-empty suffix
occurs in it only once. Missing: blocks such as "baaa" in which it occurs again
(`C33_refuted`). -/
theorem C33_rotation_minimal_partial (s : List UInt8) (hne : s ≠ [])
    (hu : ∀ f, SmallestSuffixAt s f → ∀ p < s.length, p ≠ f → ¬ s.drop f <+: s.drop p) :
    ∃ f, rotateDuval s = Res.ok (rotation s f, f) ∧ MinimalRotationAt s f := by
  obtain ⟨f, h1, h2⟩ := C33_rotates_to_smallest_suffix s hne
  exact ⟨f, h1, minimal_of_unique_suffix s f h2 (hu f h2)⟩

/-- "cab": the smallest suffix "ab" occurs once. -/
example : ∃ f, rotateDuval [99, 97, 98] = Res.ok (rotation [99, 97, 98] f, f) ∧ MinimalRotationAt [99, 97, 98] f := by
  refine C33_rotation_minimal_partial _ (by decide) ?_
  rintro f ⟨h1, h2⟩ p hp hpf
  have h1' : f < 3 := h1
  have hp' : p < 3 := hp
  have h3 := h2 1 (by decide)
  revert h3 hpf
  rcases (by omega : f = 0 ∨ f = 1 ∨ f = 2) with rfl | rfl | rfl <;>
    rcases (by omega : p = 0 ∨ p = 1 ∨ p = 2) with rfl | rfl | rfl <;> decide

theorem smallestSuffixAt_unique {s : List UInt8} {f g : Nat} (hf : SmallestSuffixAt s f)
    (hg : SmallestSuffixAt s g) : f = g := by
  have := List.le_antisymm (hf.2 g hg.1) (hg.2 f hf.1)
  have := congrArg List.length this
  simp only [List.length_drop] at this
  have := hf.1
  have := hg.1
  omega

/-- **C33**, partial, the exact extent: the rotation chosen, the one to the smallest suffix, is minimal iff it is not
larger than the rotations to the other occurrences of that suffix in the block. -/
theorem C33_minimal_iff_partial (s : List UInt8) (f : Nat) (hf : SmallestSuffixAt s f) :
    rotateDuval s = Res.ok (rotation s f, f) ∧
    (MinimalRotationAt s f ↔ ∀ p < s.length, s.drop f <+: s.drop p → rotation s f ≤ rotation s p) := by
  have hne : s ≠ [] := by rintro rfl; exact absurd hf.1 (by simp)
  obtain ⟨g, h1, h2⟩ := C33_rotates_to_smallest_suffix s hne
  have e := smallestSuffixAt_unique h2 hf
  subst e
  refine ⟨h1, fun h p hp _ => h.2 p hp, fun h => ⟨hf.1, fun p hp => ?_⟩⟩
  by_cases hpre : s.drop g <+: s.drop p
  · exact h p hp hpre
  · have hlt : s.drop g < s.drop p := by
      rcases List.le_iff_lt_or_eq.1 (hf.2 p hp) with h | h
      · exact h
      · exact absurd (h ▸ List.prefix_refl _) hpre
    exact List.le_of_lt (append_lt_append_of_lt hlt hpre _ _)

/-- Both cases occur: "banana" is rotated to its minimal rotation although "a" occurs three times; "baaa" is not. -/
example : SmallestSuffixAt [98, 97, 110, 97, 110, 97] 5 ∧ MinimalRotationAt [98, 97, 110, 97, 110, 97] 5 ∧
    SmallestSuffixAt [98, 97, 97, 97] 3 ∧ ¬ MinimalRotationAt [98, 97, 97, 97] 3 :=
  ⟨⟨by decide, by decide +kernel⟩, ⟨by decide, by decide +kernel⟩, ⟨by decide, by decide +kernel⟩,
    fun h => absurd (h.2 1 (by decide)) (by decide +kernel)⟩

/-- "banana": the smallest suffix is the last "a"... which occurs again, so the hypothesis fails there;
"bandana!" ("!" = 33 is smaller than every letter) meets it. -/
example : SmallestSuffixAt [98, 97, 110, 100, 97, 110, 97, 33] 7 ∧
    ∀ p < 8, p ≠ 7 → ¬ ([98, 97, 110, 100, 97, 110, 97, 33] : List UInt8).drop 7 <+:
      ([98, 97, 110, 100, 97, 110, 97, 33] : List UInt8).drop p := by
  refine ⟨⟨by decide, by decide +kernel⟩, by decide +kernel⟩

/-! ### C32 -/

/-- **C32.** For every byte string `build_suffix_array` returns normally (no out-of-range access, no
underflow, no missing entry, no endless recursion), with the suffix array of the string. -/
theorem C32_suffix_array (s : List UInt8) :
    ∃ sa, buildSuffixArray s = Res.ok sa ∧ IsSuffixArray s sa := Sais.buildSuffixArray_spec s

/-- There is only one suffix array. -/
theorem C32_suffix_array_unique (s : List UInt8) (sa sa' : List Nat) (h : IsSuffixArray s sa)
    (h' : IsSuffixArray s sa') : sa = sa' :=
  List.Perm.eq_of_pairwise (fun _ _ _ _ h1 h2 => absurd (List.lt_trans h1 h2) (List.lt_irrefl _)) h.2 h'.2
    (h.1.trans h'.1.symm)

/-- "banana": the suffixes in order are the empty one, a, ana, anana, banana, na, nana. A recursive call
happens for this string ("ana" occurs twice). -/
example : buildSuffixArray [98, 97, 110, 97, 110, 97] = Res.ok [6, 5, 3, 1, 0, 4, 2] := by decide +kernel
example : IsSuffixArray [98, 97, 110, 97, 110, 97] [6, 5, 3, 1, 0, 4, 2] :=
  ⟨by decide +kernel, by decide +kernel⟩

/-! ### C30 -/

/-- For every non-empty block the stage returns normally, with a rearrangement of the block and a pointer
inside it. -/
theorem C30_bwt_never_fails (s : List UInt8) (hne : s ≠ []) :
    ∃ last ptr, bwt s = Res.ok (last, ptr) ∧ last.Perm s ∧ ptr < s.length := by
  obtain ⟨f, h1, h2, -, h4⟩ := duval_spec s
  obtain ⟨sa, g1, g2⟩ := C32_suffix_array (rotation s f)
  obtain ⟨last, ptr, e1, -, e3, e4, -⟩ := bwt_spec s hne f h1 (h2 hne) sa g1 g2
  exact ⟨last, ptr, e1, e4, e3⟩

/-- "banana". -/
example : bwt [98, 97, 110, 97, 110, 97] = Res.ok ([110, 110, 98, 97, 97, 97], 3) := by decide +kernel

/-- **C30 is false**: "baaa" does not give the sorted-rotation transform; worse, inverting what comes out
does not give "baaa" back. -/
theorem C30_refuted : ∃ (s last : List UInt8) (ptr : Nat), bwt s = Res.ok (last, ptr) ∧
    ¬ IsBwt s last ptr ∧ inverseBwt last ptr ≠ Res.ok s := by
  have h : inverseBwt [97, 98, 97, 97] 3 ≠ Res.ok [98, 97, 97, 97] := by decide +kernel
  refine ⟨[98, 97, 97, 97], [97, 98, 97, 97], 3, by decide +kernel, ?_, h⟩
  intro hb
  exact h (C31_inverse_bwt _ _ _ hb)

/-- **C30**, partial: for every block on which the order of the suffixes agrees with the order of the
rotations (after rotating to the smallest suffix) the stage gives the sorted-rotation transform. Missing:
blocks such as "baaa" (`C30_refuted`). -/
theorem C30_bwt_partial (s : List UInt8) (hne : s ≠ []) (hsafe : TransformSafe s) :
    ∃ last ptr, bwt s = Res.ok (last, ptr) ∧ IsBwt s last ptr := by
  obtain ⟨f, h1, h2, -, h4⟩ := duval_spec s
  obtain ⟨sa, g1, g2⟩ := C32_suffix_array (rotation s f)
  obtain ⟨last, ptr, e1, -, -, -, e5⟩ := bwt_spec s hne f h1 (h2 hne) sa g1 g2
  exact ⟨last, ptr, e1, e5 (hsafe f ⟨h2 hne, h4⟩)⟩

/-- A block is safe when its smallest non-empty suffix starts a minimal rotation. -/
theorem transformSafe_of_minimal (s : List UInt8)
    (hmin : ∀ f, SmallestSuffixAt s f → MinimalRotationAt s f) : TransformSafe s := by
  intro f hf
  have hlt := hf.1
  refine suffixesOrder_of_minimal _ ?_
  obtain ⟨m1, m2⟩ := hmin f hf
  intro p hp
  rw [rotation_length s f (by omega)] at hp
  rw [rotation_rotation s f p (by omega) (by omega)]
  split
  · rename_i hle
    by_cases he : f + p = s.length
    · rw [he]
      have : rotation s s.length = rotation s 0 := by simp [rotation]
      rw [this]
      exact m2 0 (by omega)
    · exact m2 _ (by omega)
  · exact m2 _ (by omega)

/-- A block that ends with a byte smaller than all the others is safe. -/
theorem transformSafe_of_last (s : List UInt8) (x : UInt8) (h : ∀ y ∈ s, x < y) : TransformSafe (s ++ [x]) := by
  apply transformSafe_of_minimal
  intro f hf
  have hx : SmallestSuffixAt (s ++ [x]) s.length := by
    refine ⟨by simp, ?_⟩
    intro p hp
    rw [List.drop_left]
    by_cases he : p = s.length
    · rw [he, List.drop_left]; exact List.le_refl _
    · have hp' : p < s.length := by simp at hp; omega
      rw [List.drop_append_of_le_length (by omega), List.drop_eq_getElem_cons hp']
      exact List.le_of_lt (List.Lex.rel (h _ (List.getElem_mem hp')))
  have : f = s.length := smallestSuffixAt_unique hf hx
  subst this
  refine minimal_of_unique_suffix _ _ hx ?_
  intro p hp hne
  have hp' : p < s.length := by simp at hp; omega
  rw [List.drop_left, List.drop_append_of_le_length (by omega), List.drop_eq_getElem_cons hp']
  rintro ⟨z, hz⟩
  simp only [List.cons_append, List.cons.injEq] at hz
  have := h _ (List.getElem_mem hp')
  rw [← hz.1] at this
  exact absurd this (by simp)

/-- A block whose last byte occurs nowhere else in it is safe. -/
theorem transformSafe_of_fresh_last (s : List UInt8) (x : UInt8) (h : x ∉ s) : TransformSafe (s ++ [x]) := by
  apply transformSafe_of_minimal
  intro f hf
  have hfl := hf.1
  simp only [List.length_append, List.length_singleton] at hfl
  refine minimal_of_unique_suffix _ _ hf ?_
  intro p hp hne
  simp only [List.length_append, List.length_singleton] at hp
  rintro ⟨z, hz⟩
  have hlen := congrArg List.length hz
  simp only [List.length_append, List.length_drop, List.length_singleton] at hlen
  -- the last byte of the suffix at `f` lies, in the occurrence at `p`, inside `s`
  have h1 := congrArg (·[s.length - f]?) hz
  rw [List.getElem?_append_left (by simp; omega), List.getElem?_drop, List.getElem?_drop,
    show f + (s.length - f) = s.length by omega, List.getElem?_append_right (by omega),
    List.getElem?_append_left (by omega)] at h1
  simp only [Nat.sub_self, List.getElem?_cons_zero] at h1
  exact h (List.mem_of_getElem? h1.symm)

/-- A block whose smallest byte occurs only once is safe. -/
theorem transformSafe_of_unique_min (a b : List UInt8) (x : UInt8) (ha : ∀ y ∈ a, x < y) (hb : ∀ y ∈ b, x < y) :
    TransformSafe (a ++ x :: b) := by
  apply transformSafe_of_minimal
  intro f hf
  have hfl := hf.1
  have hbig : ∀ p < (a ++ x :: b).length, p ≠ a.length → ∃ y tl, (a ++ x :: b).drop p = y :: tl ∧ x < y := by
    intro p hp hne
    refine ⟨_, _, List.drop_eq_getElem_cons hp, ?_⟩
    rcases Nat.lt_or_ge p a.length with h1 | h1
    · rw [List.getElem_append_left h1]
      exact ha _ (List.getElem_mem h1)
    · rw [List.getElem_append_right h1]
      obtain ⟨q, hq⟩ : ∃ q, p - a.length = q + 1 := ⟨p - a.length - 1, by omega⟩
      simp only [hq, List.getElem_cons_succ]
      exact hb _ (List.getElem_mem _)
  have hx : SmallestSuffixAt (a ++ x :: b) a.length := by
    refine ⟨by simp, ?_⟩
    intro p hp
    rw [List.drop_left]
    by_cases he : p = a.length
    · rw [he, List.drop_left]; exact List.le_refl _
    · obtain ⟨y, tl, e, hy⟩ := hbig p hp he
      rw [e]
      exact List.le_of_lt (List.Lex.rel hy)
  have : f = a.length := smallestSuffixAt_unique hf hx
  subst this
  refine minimal_of_unique_suffix _ _ hx ?_
  intro p hp hne
  obtain ⟨y, tl, e, hy⟩ := hbig p hp hne
  rw [List.drop_left, e]
  rintro ⟨z, hz⟩
  simp only [List.cons_append, List.cons.injEq] at hz
  rw [← hz.1] at hy
  exact absurd hy (by simp)

/-- "banana" meets the hypothesis: its smallest suffix is the last "a", and "abanan" is the minimal rotation. -/
example : TransformSafe [98, 97, 110, 97, 110, 97] := by
  apply transformSafe_of_minimal
  intro f hf
  have h5 : SmallestSuffixAt [98, 97, 110, 97, 110, 97] 5 := ⟨by decide, by decide +kernel⟩
  rw [smallestSuffixAt_unique hf h5]
  exact ⟨by decide, by decide +kernel⟩

/-- **C30**: exactly which blocks are safe. Let `r` be the block rotated to its smallest suffix. The block is
safe iff no rotation of `r` that starts behind an occurrence of the last byte of `r` is smaller than `r`. -/
theorem C30_safe_iff (s : List UInt8) (f : Nat) (hf : SmallestSuffixAt s f) :
    TransformSafe s ↔ ∀ i, 1 ≤ i → i < s.length →
      (rotation s f)[i - 1]? = (rotation s f)[s.length - 1]? →
      rotation s f ≤ rotation (rotation s f) i := by
  have hl := rotation_length s f (Nat.le_of_lt hf.1)
  have h : TransformSafe s ↔ SuffixesOrderRotations (rotation s f) :=
    ⟨fun h => h f hf, fun h g hg => by rw [smallestSuffixAt_unique hg hf]; exact h⟩
  rw [h, suffixesOrder_iff, hl]
  simp only [PrecededByLast, hl]

/-- "baaa" is not safe: its smallest suffix is the last byte, and a rotation of "abaa" behind an "a" is smaller. -/
example : ¬ TransformSafe [98, 97, 97, 97] := by
  rw [C30_safe_iff _ 3 ⟨by decide, by decide +kernel⟩]
  intro h
  exact absurd (h 3 (by decide) (by decide) (by decide)) (by decide +kernel)

/-- **C30**, partial, the exact extent: the stage gives the sorted-rotation transform of a non-empty block for
the safe blocks and for no others. Missing: nothing more is true; for the other blocks the property fails. -/
theorem C30_bwt_iff_safe_partial (s : List UInt8) (hne : s ≠ []) :
    (∃ last ptr, bwt s = Res.ok (last, ptr) ∧ IsBwt s last ptr) ↔ TransformSafe s := by
  refine ⟨?_, C30_bwt_partial s hne⟩
  rintro ⟨last, ptr, hb, hi⟩ g hg
  obtain ⟨f, h1, h2, -, h4⟩ := duval_spec s
  have hf : SmallestSuffixAt s f := ⟨h2 hne, h4⟩
  rw [smallestSuffixAt_unique hg hf]
  obtain ⟨sa, g1, g2⟩ := C32_suffix_array (rotation s f)
  have h0 : 0 < s.length := List.length_pos_iff.2 hne
  obtain ⟨L, row, e1, e2⟩ := Inj.bwt_rows s hne f h1 (h2 hne) sa g1 g2 s.length rfl h0
  rw [hb, Res.ok.injEq, Prod.mk.injEq] at e2
  rw [e2.1, e2.2] at hi
  have hw : s.length - f = (s.drop f).length := by simp
  refine Inj.safe_of_isBwt (w := s.drop f) (y := s.take f) e1 (Inj.smallest_of_at hf) h0 ?_
  rw [List.take_append_drop]
  simp only [hw] at hi
  exact hi

/-- **C30**, partial, for blocks one can recognise: the byte in front of the smallest suffix (the last byte,
if that suffix is the whole block) occurs nowhere else in the block. Missing: the other blocks. -/
theorem C30_unique_byte_partial (s : List UInt8) (f : Nat) (hf : SmallestSuffixAt s f) (c : UInt8)
    (hc : s[if f = 0 then s.length - 1 else f - 1]? = some c) (hu : s.count c = 1) :
    ∃ last ptr, bwt s = Res.ok (last, ptr) ∧ IsBwt s last ptr := by
  have hlt := hf.1
  have hl := rotation_length s f (Nat.le_of_lt hlt)
  refine C30_bwt_partial s (by rintro rfl; simp at hlt) ((C30_safe_iff s f hf).2 ?_)
  intro i hi hil he
  exfalso
  have hlast : (rotation s f)[s.length - 1]? = some c := by
    rw [← hc]
    unfold rotation
    split
    · rename_i h0; subst h0; simp
    · rw [List.getElem?_append_right (by simp; omega), List.length_drop, List.getElem?_take_of_lt (by omega)]
      congr 1; omega
  have hcount : (rotation s f).count c = 1 := by rw [(rotation_perm s f).count_eq, hu]
  rw [hlast] at he
  generalize rotation s f = r at *
  obtain ⟨h1, h1'⟩ := List.getElem?_eq_some_iff.1 he
  obtain ⟨h2, h2'⟩ := List.getElem?_eq_some_iff.1 hlast
  rw [← List.take_append_drop i r, List.count_append] at hcount
  have m1 : c ∈ r.take i := List.mem_iff_getElem.2 ⟨i - 1, by simp; omega, by simpa using h1'⟩
  have m2 : c ∈ r.drop i := List.mem_iff_getElem.2 ⟨s.length - 1 - i, by simp; omega, by
    rw [List.getElem_drop]; convert h2' using 2; omega⟩
  have := List.count_pos_iff.2 m1
  have := List.count_pos_iff.2 m2
  omega

/-- Such a block: "abcabd" (smallest suffix: all of it; "d" occurs once). -/
example : SmallestSuffixAt [97, 98, 99, 97, 98, 100] 0 ∧
    ([97, 98, 99, 97, 98, 100] : List UInt8).count 100 = 1 := ⟨⟨by decide, by decide +kernel⟩, by decide⟩

/-- The criterion decides: "baaa" is not safe. -/
example : ¬ TransformSafe [98, 97, 97, 97] := by
  have h3 : SmallestSuffixAt [98, 97, 97, 97] 3 := ⟨by decide, by decide +kernel⟩
  rw [C30_safe_iff _ 3 h3]
  intro h
  exact absurd (h 3 (by decide) (by decide) (by decide)) (by decide +kernel)

end Ribzip2
