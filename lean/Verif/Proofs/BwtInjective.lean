import Verif.Proofs.BwtSafe
import Mathlib.Data.Fin.Tuple.Sort
import Mathlib.Data.Fintype.EquivFin
import Mathlib.Order.Interval.Finset.Fin
/- The transform the code computes (last column in suffix order of the string rotated to its smallest suffix)
loses no information: different blocks give a different column or a different pointer. -/
namespace Ribzip2
namespace Inj
open Spec

/-! ### Ranks -/

theorem rank_eq {n : Nat} (σ : Equiv.Perm (Fin n)) (lt : Fin n → Fin n → Prop) [∀ a b, Decidable (lt a b)]
    (h : ∀ i j, i < j ↔ lt (σ i) (σ j)) (t : Fin n) :
    (σ.symm t).1 = (Finset.univ.filter fun u => lt u t).card := by
  have h1 : (Finset.univ.filter fun u => lt u t) = (Finset.Iio (σ.symm t)).map σ.toEmbedding := by
    ext u
    simp only [Finset.mem_filter, Finset.mem_univ, true_and, Finset.mem_map, Finset.mem_Iio,
      Equiv.coe_toEmbedding]
    constructor
    · intro hu
      refine ⟨σ.symm u, ?_, by simp⟩
      rw [h]; simpa using hu
    · rintro ⟨a, ha, rfl⟩
      rw [h] at ha; simpa using ha
  rw [h1, Finset.card_map, Fin.card_Iio]

theorem perm_agree {n : Nat} (σ τ : Equiv.Perm (Fin n)) (lt lt' : Fin n → Fin n → Prop)
    (h : ∀ i j, i < j ↔ lt (σ i) (σ j)) (h' : ∀ i j, i < j ↔ lt' (τ i) (τ j)) (t : Fin n)
    (ht : ∀ u, lt u t ↔ lt' u t) : σ.symm t = τ.symm t := by
  classical
  apply Fin.ext
  rw [rank_eq σ lt h, rank_eq τ lt' h']
  congr 1
  ext u
  simp [ht u]

/-! ### The two orders of the rows -/

section
variable {n : Nat} (L : Fin n → UInt8)

/-- Rows ordered by (byte in front, row). -/
def keyLt (u t : Fin n) : Prop := L u < L t ∨ (L u = L t ∧ u < t)

/-- The same, but row `K` comes before all rows with the same byte. -/
def keyLt' (K u t : Fin n) : Prop :=
  L u < L t ∨ (L u = L t ∧ ((u = K ∧ t ≠ K) ∨ (u ≠ K ∧ t ≠ K ∧ u < t)))

/-- The standard permutation of the column. -/
def psi : Equiv.Perm (Fin n) := Tuple.sort fun k => (L k).toNat

theorem psi_lt (i j : Fin n) : i < j ↔ keyLt L (psi L i) (psi L j) := by
  obtain ⟨h1, h2⟩ := Tuple.eq_sort_iff.1 (rfl : psi L = Tuple.sort fun k => (L k).toNat)
  have fwd : ∀ i j : Fin n, i < j → keyLt L (psi L i) (psi L j) := by
    intro i j hij
    have hm := h1 (Nat.le_of_lt hij : i ≤ j)
    simp only [Function.comp] at hm
    by_cases he : (L (psi L i)).toNat = (L (psi L j)).toNat
    · exact Or.inr ⟨UInt8.toNat_inj.1 he, h2 i j hij he⟩
    · left; rw [UInt8.lt_iff_toNat_lt]; omega
  refine ⟨fwd i j, fun h => ?_⟩
  rcases lt_trichotomy i j with hij | hij | hij
  · exact hij
  · subst hij
    rcases h with h | h
    · exact absurd h (by simp)
    · exact absurd h.2 (lt_irrefl _)
  · have := fwd j i hij
    exfalso
    rcases h with h | ⟨h, h'⟩ <;> rcases this with g | ⟨g, g'⟩
    · rw [UInt8.lt_iff_toNat_lt] at h g; omega
    · rw [g] at h; exact absurd h (by simp)
    · rw [h] at g; exact absurd g (by simp)
    · exact absurd (lt_trans h' g') (lt_irrefl _)

/-- The word of length `m` that starts in row `k`. -/
def word : Nat → Fin n → List UInt8
  | 0, _ => []
  | m + 1, k => L (psi L k) :: word m (psi L k)

theorem word_length (m : Nat) (k : Fin n) : (word L m k).length = m := by
  induction m generalizing k with
  | zero => rfl
  | succ m ih => simp [word, ih]

theorem word_take (m a : Nat) (k : Fin n) : (word L (m + a) k).take m = word L m k := by
  induction m generalizing k with
  | zero => rfl
  | succ m ih =>
    rw [show m + 1 + a = (m + a) + 1 by omega, word, word, List.take_succ_cons, ih]

theorem word_drop (a m : Nat) (k : Fin n) : (word L (a + m) k).drop a = word L m ((psi L)^[a] k) := by
  induction a generalizing k with
  | zero => simp
  | succ a ih =>
    rw [show a + 1 + m = (a + m) + 1 by omega, word, List.drop_succ_cons, ih]
    rfl

theorem word_mono (m : Nat) (k k' : Fin n) (h : k ≤ k') : word L m k ≤ word L m k' := by
  induction m generalizing k k' with
  | zero => simp [word]
  | succ m ih =>
    rcases eq_or_lt_of_le h with rfl | h
    · exact List.le_refl _
    · rw [word, word, List.cons_le_cons_iff]
      rcases (psi_lt L k k').1 h with h | ⟨h, h'⟩
      · exact Or.inl h
      · exact Or.inr ⟨h, ih _ _ (le_of_lt h')⟩

theorem psi_iterate_lt (m : Nat) (k k' : Fin n) (h : k < k') (he : word L m k = word L m k') :
    (psi L)^[m] k < (psi L)^[m] k' := by
  induction m generalizing k k' with
  | zero => exact h
  | succ m ih =>
    rw [word, word] at he
    obtain ⟨e1, e2⟩ := List.cons.inj he
    rcases (psi_lt L k k').1 h with h | ⟨-, h'⟩
    · rw [e1] at h; exact absurd h (by simp)
    · exact ih _ _ h' e2

theorem psi_iterate_inj (m : Nat) {k k' : Fin n} (h : (psi L)^[m] k = (psi L)^[m] k') : k = k' :=
  Function.Injective.iterate (psi L).injective m h

end

/-! ### Strings whose rows are in suffix order -/

/-- The position behind `x`, around the end. -/
def nx {n : Nat} (x : Fin n) : Fin n := ⟨(x.1 + 1) % n, Nat.mod_lt _ (by have := x.2; omega)⟩

theorem nx_injective {n : Nat} : Function.Injective (nx (n := n)) := by
  intro x y h
  have hx := x.2
  have hy := y.2
  have h := Fin.mk.inj_iff.1 h
  apply Fin.ext
  rcases Nat.lt_or_ge (x.1 + 1) n with h1 | h1 <;> rcases Nat.lt_or_ge (y.1 + 1) n with h2 | h2
  · rw [Nat.mod_eq_of_lt h1, Nat.mod_eq_of_lt h2] at h; omega
  · rw [Nat.mod_eq_of_lt h1, show y.1 + 1 = n by omega, Nat.mod_self] at h; omega
  · rw [Nat.mod_eq_of_lt h2, show x.1 + 1 = n by omega, Nat.mod_self] at h; omega
  · omega

/-- The data of the transform of a rotated string `r`: `row x` is the row of the suffix at `x`, the rows are
in the order of the suffixes, `L` is the column of the bytes in front. -/
structure Rows (n : Nat) (r : List UInt8) (L : Fin n → UInt8) (row : Equiv.Perm (Fin n)) : Prop where
  length : r.length = n
  order : ∀ x y, row x < row y ↔ r.drop x.1 < r.drop y.1
  column : ∀ x, r[x.1]? = some (L (row (nx x)))

variable {n : Nat} {r : List UInt8} {L : Fin n → UInt8} {row : Equiv.Perm (Fin n)}

/-- From a row to the row of the next position. -/
noncomputable def nextRow (row : Equiv.Perm (Fin n)) : Equiv.Perm (Fin n) :=
  (row.symm.trans (Equiv.ofBijective nx ((Finite.injective_iff_bijective).1 nx_injective))).trans row

theorem nextRow_row (x : Fin n) : nextRow row (row x) = row (nx x) := by simp [nextRow]

theorem nextRow_symm (x : Fin n) : (nextRow row).symm (row (nx x)) = row x := by
  rw [← nextRow_row, Equiv.symm_apply_apply]

theorem Rows.pos (h : Rows n r L row) (x : Fin n) : r.drop x.1 = L (row (nx x)) :: r.drop (x.1 + 1) := by
  have hx : x.1 < r.length := by rw [h.length]; exact x.2
  have := h.column x
  rw [List.getElem?_eq_getElem hx] at this
  rw [List.drop_eq_getElem_cons hx]
  simp only [Option.some.injEq] at this
  rw [this]

/-- The row of position 0. -/
def rowZero (row : Equiv.Perm (Fin n)) (h0 : 0 < n) : Fin n := row ⟨0, h0⟩

theorem nx_eq_zero_iff (h0 : 0 < n) (x : Fin n) : nx x = ⟨0, h0⟩ ↔ x.1 + 1 = n := by
  have hx := x.2
  unfold nx
  rw [Fin.mk.injEq]
  rcases Nat.lt_or_ge (x.1 + 1) n with h1 | h1
  · rw [Nat.mod_eq_of_lt h1]; omega
  · rw [show x.1 + 1 = n by omega, Nat.mod_self]; omega

theorem nx_val (x : Fin n) (h : x.1 + 1 ≠ n) : (nx x).1 = x.1 + 1 := by
  have hx := x.2
  exact Nat.mod_eq_of_lt (by omega)

theorem Rows.nextRow_lt (h : Rows n r L row) (h0 : 0 < n) (i j : Fin n) :
    i < j ↔ keyLt' L (rowZero row h0) (nextRow row i) (nextRow row j) := by
  obtain ⟨x, rfl⟩ := row.surjective i
  obtain ⟨y, rfl⟩ := row.surjective j
  rw [h.order, h.pos x, h.pos y, List.cons_lt_cons_iff, nextRow_row, nextRow_row, keyLt']
  have ez : ∀ z : Fin n, row (nx z) = rowZero row h0 ↔ z.1 + 1 = n := by
    intro z
    rw [rowZero, row.injective.eq_iff, nx_eq_zero_iff]
  have hn := h.length
  have hx := x.2
  have hy := y.2
  refine or_congr Iff.rfl (and_congr_right fun _ => ?_)
  rw [ne_eq, ne_eq, ez, ez]
  by_cases hx1 : x.1 + 1 = n
  · rw [List.drop_of_length_le (by omega)]
    by_cases hy1 : y.1 + 1 = n
    · rw [List.drop_of_length_le (by omega)]; simp [hx1, hy1]
    · rw [List.drop_eq_getElem_cons (by omega)]
      simp only [hx1, hy1, not_true_eq_false, not_false_eq_true, and_self, false_and, or_false, iff_true]
      exact List.Lex.nil
  · by_cases hy1 : y.1 + 1 = n
    · rw [List.drop_of_length_le (l := r) (i := y.1 + 1) (by omega)]; simp [hx1, hy1]
    · simp only [hx1, hy1, not_false_eq_true, and_true, false_or, true_and, h.order, nx_val x hx1, nx_val y hy1]

theorem keyLt'_iff_of_ne {K t : Fin n} (ht : L t ≠ L K ∨ K < t) (u : Fin n) : keyLt L u t ↔ keyLt' L K u t := by
  unfold keyLt keyLt'
  refine or_congr Iff.rfl (and_congr_right fun he => ?_)
  have htK : t ≠ K := by
    rintro rfl
    rcases ht with h | h
    · exact h rfl
    · exact absurd h (lt_irrefl _)
  by_cases hu : u = K
  · subst hu
    rcases ht with h | h
    · exact absurd he.symm h
    · simp [h, htK]
  · simp [hu, htK]

theorem keyLt'_iff_of_first {K : Fin n} (hK : ∀ u, u < K → L u ≠ L K) (u : Fin n) :
    keyLt L u K ↔ keyLt' L K u K := by
  unfold keyLt keyLt'
  refine or_congr Iff.rfl (and_congr_right fun he => ?_)
  simp only [ne_eq, not_true_eq_false, and_false, false_and, or_false, iff_false]
  intro hu
  exact hK u hu he

/-- Off the rows up to `K` with the byte of `K`, the standard permutation leads to the next position. -/
theorem Rows.psi_row (h : Rows n r L row) (h0 : 0 < n) (x : Fin n)
    (hx : L (row (nx x)) ≠ L (rowZero row h0) ∨ rowZero row h0 < row (nx x)) :
    psi L (row x) = row (nx x) := by
  have := perm_agree (psi L) (nextRow row) (keyLt L) (keyLt' L (rowZero row h0)) (psi_lt L)
    (h.nextRow_lt h0) (row (nx x)) (keyLt'_iff_of_ne hx)
  rw [nextRow_symm] at this
  rw [← this, Equiv.apply_symm_apply]

theorem Rows.psi_last (h : Rows n r L row) (h0 : 0 < n) (hK : ∀ u, u < rowZero row h0 → L u ≠ L (rowZero row h0))
    (x : Fin n) (hx : x.1 + 1 = n) : psi L (row x) = rowZero row h0 := by
  have e : row (nx x) = rowZero row h0 := by rw [rowZero, (nx_eq_zero_iff h0 x).2 hx]
  have := perm_agree (psi L) (nextRow row) (keyLt L) (keyLt' L (rowZero row h0)) (psi_lt L)
    (h.nextRow_lt h0) (rowZero row h0) (keyLt'_iff_of_first hK)
  rw [← e, nextRow_symm, e] at this
  rw [← this, Equiv.apply_symm_apply]

/-- Otherwise both ways lead to rows up to `K`, with the same byte in front. -/
theorem Rows.psi_cases (h : Rows n r L row) (h0 : 0 < n) (x : Fin n) :
    psi L (row x) = row (nx x) ∨
    (L (psi L (row x)) = L (row (nx x)) ∧ psi L (row x) ≤ rowZero row h0 ∧ row (nx x) ≤ rowZero row h0) := by
  by_cases hx : L (row (nx x)) ≠ L (rowZero row h0) ∨ rowZero row h0 < row (nx x)
  · exact Or.inl (h.psi_row h0 x hx)
  · by_cases ht : L (psi L (row x)) ≠ L (rowZero row h0) ∨ rowZero row h0 < psi L (row x)
    · left
      have := perm_agree (psi L) (nextRow row) (keyLt L) (keyLt' L (rowZero row h0)) (psi_lt L)
        (h.nextRow_lt h0) (psi L (row x)) (keyLt'_iff_of_ne ht)
      rw [Equiv.symm_apply_apply] at this
      have := congrArg (nextRow row) this
      rw [Equiv.apply_symm_apply, nextRow_row] at this
      exact this.symm
    · right
      simp only [not_or, ne_eq, not_not, not_lt] at hx ht
      exact ⟨ht.1.trans hx.1.symm, ht.2, hx.2⟩

/-! ### Words and rotations -/

/-- The word of length `m` read from position `x`, around the end. -/
def ring (r : List UInt8) : Nat → Fin n → List UInt8
  | 0, _ => []
  | m + 1, x => r.getD x.1 0 :: ring r m (nx x)

theorem Rows.getD (h : Rows n r L row) (x : Fin n) : r.getD x.1 0 = L (row (nx x)) := by
  rw [List.getD_eq_getElem?_getD, h.column x]; rfl

/-- As long as the words of the rows up to `K` agree, words along the standard permutation are the words of
the string. -/
theorem Rows.word_eq (h : Rows n r L row) (h0 : 0 < n) (M : Nat)
    (hsp : ∀ m, m + 1 ≤ M → ∀ x, row x ≤ rowZero row h0 → ring r m x = ring r m ⟨0, h0⟩) (m : Nat) (hm : m ≤ M)
    (x : Fin n) : word L m (row x) = ring r m x := by
  induction m generalizing x with
  | zero => rfl
  | succ m ih =>
    rw [word, ring, h.getD]
    rcases h.psi_cases h0 x with e | ⟨e1, e2, e3⟩
    · rw [e, ih (by omega)]
    · rw [e1]
      congr 1
      obtain ⟨y, hy⟩ := row.surjective (psi L (row x))
      rw [← hy, ih (by omega), hsp m hm y (by rw [hy]; exact e2), hsp m hm (nx x) e3]

theorem ring_length (m : Nat) (x : Fin n) : (ring r m x).length = m := by
  induction m generalizing x with
  | zero => rfl
  | succ m ih => simp [ring, ih]

theorem ring_drop (a m : Nat) (x : Fin n) : (ring r (a + m) x).drop a = ring r m (nx^[a] x) := by
  induction a generalizing x with
  | zero => simp
  | succ a ih =>
    rw [show a + 1 + m = (a + m) + 1 by omega, ring, List.drop_succ_cons, ih]
    rfl

theorem ring_take (m a : Nat) (x : Fin n) : (ring r (m + a) x).take m = ring r m x := by
  induction m generalizing x with
  | zero => rfl
  | succ m ih =>
    rw [show m + 1 + a = (m + a) + 1 by omega, ring, ring, List.take_succ_cons, ih]

theorem nx_iterate_val (a : Nat) (x : Fin n) : (nx^[a] x).1 = (x.1 + a) % n := by
  induction a generalizing x with
  | zero => simp [Nat.mod_eq_of_lt x.2]
  | succ a ih =>
    rw [Function.iterate_succ_apply, ih]
    simp only [nx, Nat.mod_add_mod]
    congr 1
    omega

theorem ring_getElem (m : Nat) (x : Fin n) (i : Nat) (hi : i < m) :
    (ring r m x)[i]'(by rw [ring_length]; exact hi) = r.getD ((x.1 + i) % n) 0 := by
  induction i generalizing m x with
  | zero =>
    match m, hi with
    | m + 1, _ => simp [ring, Nat.mod_eq_of_lt x.2]
  | succ i ih =>
    match m, hi with
    | m + 1, hi =>
      simp only [ring, List.getElem_cons_succ]
      rw [ih m (nx x) (by omega)]
      simp only [nx, Nat.mod_add_mod]
      congr 2
      omega

theorem ring_eq_rotation (hn : r.length = n) (x : Fin n) : ring r n x = rotation r x.1 := by
  have hx := x.2
  apply List.ext_getElem
  · rw [ring_length, rotation_length r _ (by omega), hn]
  · intro i h1 h2
    rw [ring_length] at h1
    rw [ring_getElem _ _ _ h1]
    simp only [rotation, List.getElem_append, List.length_drop, List.getElem_drop, List.getElem_take]
    split
    · rename_i h
      rw [Nat.mod_eq_of_lt (by omega), List.getD_eq_getElem?_getD, List.getElem?_eq_getElem (by omega)]
      rfl
    · rename_i h
      have : (x.1 + i) % n = i - (r.length - x.1) := by
        rw [Nat.mod_eq_sub_mod (by omega), Nat.mod_eq_of_lt (by omega)]; omega
      rw [this, List.getD_eq_getElem?_getD, List.getElem?_eq_getElem (by omega)]
      rfl

theorem ring_eq_take (hn : r.length = n) (m : Nat) (hm : m ≤ n) (x : Fin n) :
    ring r m x = (rotation r x.1).take m := by
  rw [← ring_eq_rotation hn]
  obtain ⟨a, rfl⟩ := Nat.exists_eq_add_of_le hm
  rw [ring_take]

/-! ### The smallest suffix -/

/-- `w` is the smallest non-empty suffix of `y ++ w`. -/
structure Smallest (w y : List UInt8) : Prop where
  ne : w ≠ []
  le : ∀ p, p < (y ++ w).length → w ≤ (y ++ w).drop p

variable {w y : List UInt8}

theorem append_lt_left (a : List UInt8) {x y : List UInt8} (h : x < y) : a ++ x < a ++ y := by
  induction a with
  | nil => simpa using h
  | cons c a ih => rw [List.cons_append, List.cons_append, List.cons_lt_cons_iff]; exact Or.inr ⟨rfl, ih⟩

theorem prefix_le_append (a b : List UInt8) : a ≤ a ++ b := by
  induction a with
  | nil => simp
  | cons c a ih => rw [List.cons_append, List.cons_le_cons_iff]; exact Or.inr ⟨rfl, ih⟩

theorem Smallest.lyndon (h : Smallest w y) (t : Nat) (ht : 0 < t) (htl : t < w.length) :
    w < w.drop t ∧ ¬ w.drop t <+: w := by
  have hle := h.le (y.length + t) (by simp; omega)
  rw [List.drop_append, List.drop_of_length_le (by omega), List.nil_append,
    show y.length + t - y.length = t by omega] at hle
  have hne : w ≠ w.drop t := by
    intro e
    have := congrArg List.length e
    simp at this; omega
  have hlt : w < w.drop t := by
    rcases List.le_iff_lt_or_eq.1 hle with h | h
    · exact h
    · exact absurd h hne
  refine ⟨hlt, ?_⟩
  rintro ⟨z, hz⟩
  have := prefix_le_append (w.drop t) z
  rw [hz] at this
  exact absurd hlt (List.not_lt.2 this)

theorem Smallest.le_drop (h : Smallest w y) (x : Nat) (hx : x < (w ++ y).length) : w ≤ (w ++ y).drop x := by
  by_cases hxw : x < w.length
  · rw [List.drop_append_of_le_length (by omega)]
    by_cases h0 : x = 0
    · subst h0; exact prefix_le_append _ _
    · exact List.le_trans (List.le_of_lt (h.lyndon x (by omega) hxw).1) (prefix_le_append _ _)
  · rw [List.drop_append, List.drop_of_length_le (by omega), List.nil_append]
    rw [List.length_append] at hx
    have hz := h.le (x - w.length) (by simp; omega)
    rw [List.drop_append_of_le_length (by omega)] at hz
    have hzne : y.drop (x - w.length) ≠ [] := by
      intro e
      have := congrArg List.length e
      simp at this; omega
    generalize y.drop (x - w.length) = z at *
    rw [← List.not_lt]
    intro hlt
    by_cases hp : z <+: w
    · obtain ⟨v, hv⟩ := hp
      have hvd : v = w.drop z.length := by rw [← hv]; simp
      rw [← hv] at hz
      have h2 : v ≤ z ++ v := by
        rw [← List.not_lt] at hz ⊢
        intro hc
        refine hz ?_
        exact append_lt_left z hc
      by_cases hvn : v = []
      · subst hvn
        rw [List.append_nil] at hv
        rw [hv] at hlt
        exact absurd hlt (List.lt_irrefl _)
      · have hl : z.length < w.length := by
          rw [← hv]; have := List.length_pos_iff.2 hvn; simp; omega
        have := (h.lyndon z.length (List.length_pos_iff.2 hzne) hl).1
        rw [← hvd] at this
        rw [hv] at h2
        exact absurd this (List.not_lt.2 h2)
    · have := append_lt_append_of_lt hlt hp w []
      rw [List.append_nil] at this
      exact absurd this (List.not_lt.2 hz)

theorem le_take {a b : List UInt8} (h : a ≤ b) : a ≤ b.take a.length := by
  have := take_le_take a.length h
  rwa [List.take_length] at this

theorem Smallest.prefix_of_le (h : Smallest w y) (x : Nat) (hx : x < (w ++ y).length)
    (hle : (w ++ y).drop x ≤ w ++ y) : w <+: (w ++ y).drop x := by
  have h1 := le_take (h.le_drop x hx)
  have h2 := take_le_take w.length hle
  rw [List.take_left] at h2
  have := List.le_antisymm h1 h2
  rw [List.prefix_iff_eq_take]
  exact this

/-- `w` repeated. -/
def pow (w : List UInt8) (m : Nat) : List UInt8 := (List.replicate m w).flatten

theorem pow_succ (w : List UInt8) (m : Nat) : pow w (m + 1) = w ++ pow w m := by
  simp [pow, List.replicate_succ]

theorem pow_length (w : List UInt8) (m : Nat) : (pow w m).length = m * w.length := by
  simp [pow]

theorem lt_or_power (w : List UInt8) (hw : w ≠ []) (y : List UInt8)
    (hy : ∀ x, x < y.length → w ≤ y.drop x) (hne : y ≠ []) :
    w ++ y < y ∨ ∃ m, y = pow w (m + 1) := by
  induction hN : y.length using Nat.strong_induction_on generalizing y with
  | _ N ih =>
    by_cases hp : w <+: y
    · obtain ⟨y', rfl⟩ := hp
      by_cases hy' : y' = []
      · subst hy'; exact Or.inr ⟨0, by simp [pow]⟩
      · have hlen : 0 < w.length := List.length_pos_iff.2 hw
        have hrec : ∀ x, x < y'.length → w ≤ y'.drop x := by
          intro x hx
          have := hy (w.length + x) (by simp; omega)
          rwa [List.drop_append, List.drop_of_length_le (by omega), List.nil_append,
            show w.length + x - w.length = x by omega] at this
        rcases ih y'.length (by rw [← hN, List.length_append]; omega) y' hrec hy' rfl with h | ⟨m, h⟩
        · left; exact append_lt_left w h
        · right; exact ⟨m + 1, by rw [h, pow_succ w (m + 1)]⟩
    · left
      have h0 := hy 0 (List.length_pos_iff.2 hne)
      rw [List.drop_zero] at h0
      have hlt : w < y := by
        rcases List.le_iff_lt_or_eq.1 h0 with h | h
        · exact h
        · subst h; exact absurd (List.prefix_refl _) hp
      have := append_lt_append_of_lt hlt hp y []
      rwa [List.append_nil] at this

/-! ### What column and pointer say about one string -/

section One
variable (h : Rows n (w ++ y) L row) (hs : Smallest w y) (h0 : 0 < n)
include h hs

omit hs in
theorem row_le_zero_iff (x : Fin n) : row x ≤ rowZero row h0 ↔ (w ++ y).drop x.1 ≤ w ++ y := by
  rw [rowZero, ← not_lt, h.order, List.drop_zero, List.not_lt]

theorem special (m : Nat) (hm : m ≤ w.length) (x : Fin n) (hx : row x ≤ rowZero row h0) :
    ring (w ++ y) m x = ring (w ++ y) m ⟨0, h0⟩ := by
  have hl := h.length
  have hwl : w.length ≤ n := by rw [← hl]; simp
  rw [row_le_zero_iff h h0] at hx
  rw [ring_eq_take hl m (by omega), ring_eq_take hl m (by omega), rotation_zero]
  obtain ⟨z, hz⟩ := hs.prefix_of_le x.1 (by rw [hl]; exact x.2) hx
  rw [rotation, ← hz, List.append_assoc, List.take_append_of_le_length hm, List.take_append_of_le_length hm]

theorem word_zero : word L w.length (rowZero row h0) = w := by
  have hl := h.length
  rw [rowZero, h.word_eq h0 w.length (fun m hm x hx => special h hs h0 m (by omega) x hx) _ (Nat.le_refl _),
    ring_eq_take hl _ (by rw [← hl]; simp), rotation_zero, List.take_left]

theorem word_first : word L w.length ⟨0, h0⟩ = w := by
  have hl := h.length
  apply List.le_antisymm
  · conv => rhs; rw [← word_zero h hs h0]
    exact word_mono L _ _ _ (Nat.zero_le _)
  · obtain ⟨x, hx⟩ := row.surjective ⟨0, h0⟩
    rw [← hx, h.word_eq h0 w.length (fun m hm x hx => special h hs h0 m (by omega) x hx) _ (Nat.le_refl _),
      ring_eq_take hl _ (by rw [← hl]; simp)]
    refine le_take ?_
    exact List.le_trans (hs.le_drop x.1 (by rw [hl]; exact x.2)) (prefix_le_append _ _)

/-- Walking down the smallest suffix. -/
theorem walk (hp : ∀ m, y ≠ pow w (m + 1)) (j : Nat) (hj : j ≤ w.length) :
    (psi L)^[j] (rowZero row h0) = row ⟨j % n, Nat.mod_lt _ h0⟩ := by
  have hl := h.length
  have hwl : w.length ≤ n := by rw [← hl]; simp
  induction j with
  | zero => simp [rowZero]
  | succ j ih =>
    rw [Function.iterate_succ_apply', ih (by omega)]
    have hjn : j % n = j := Nat.mod_eq_of_lt (by omega)
    have hnx : nx (⟨j % n, Nat.mod_lt _ h0⟩ : Fin n) = ⟨(j + 1) % n, Nat.mod_lt _ h0⟩ := by
      simp only [nx, Nat.mod_add_mod]
    by_cases hlast : j + 1 = n
    · have hyn : y = [] := by
        rw [List.length_append] at hl
        exact List.length_eq_zero_iff.1 (by omega)
      rw [h.psi_last h0 ?_ _ (by simp only [hjn]; exact hlast)]
      · simp only [rowZero, hlast, Nat.mod_self]
      · intro u hu
        obtain ⟨x, rfl⟩ := row.surjective u
        rw [rowZero, h.order, List.drop_zero] at hu
        have := hs.le_drop x.1 (by rw [hl]; exact x.2)
        rw [hyn, List.append_nil] at hu this
        exact absurd hu (List.not_lt.2 this)
    · rw [h.psi_row h0 _ ?_, hnx]
      right
      rw [hnx, rowZero, h.order, List.drop_zero]
      simp only [Nat.mod_eq_of_lt (show j + 1 < n by omega)]
      by_cases hjw : j + 1 < w.length
      · obtain ⟨h1, h2⟩ := hs.lyndon (j + 1) (by omega) hjw
        rw [List.drop_append_of_le_length (by omega)]
        refine append_lt_append_of_lt h1 ?_ _ _
        rintro ⟨z, hz⟩
        have := congrArg List.length hz
        simp at this
        omega
      · have hjw' : j + 1 = w.length := by omega
        rw [hjw', List.drop_left]
        have hyne : y ≠ [] := by
          rintro rfl
          simp at hl
          omega
        rcases lt_or_power w hs.ne y (fun x hx => by
          have := hs.le_drop (w.length + x) (by simp; omega)
          rwa [List.drop_append, List.drop_of_length_le (by omega), List.nil_append,
            show w.length + x - w.length = x by omega] at this) hyne with h | ⟨m, h⟩
        · exact h
        · exact absurd h (hp m)

end One

theorem pow_getD (w : List UInt8) (m j : Nat) (hj : j < m * w.length) :
    (pow w m).getD j 0 = w.getD (j % w.length) 0 := by
  induction m generalizing j with
  | zero => simp at hj
  | succ m ih =>
    rw [pow_succ]
    by_cases h : j < w.length
    · rw [Nat.mod_eq_of_lt h, List.getD_eq_getElem?_getD, List.getElem?_append_left h,
        ← List.getD_eq_getElem?_getD]
    · rw [List.getD_eq_getElem?_getD, List.getElem?_append_right (by omega), ← List.getD_eq_getElem?_getD,
        ih _ (by rw [Nat.add_mul, Nat.one_mul] at hj; omega), ← Nat.mod_eq_sub_mod (by omega)]

section Power
variable {m : Nat} (h : Rows n (w ++ y) L row) (hs : Smallest w y) (h0 : 0 < n) (hy : y = pow w (m + 1))
include h hs hy

omit h hs in
theorem whole : w ++ y = pow w (m + 2) := by rw [hy, pow_succ w (m + 1)]

omit hs in
theorem n_eq : n = (m + 2) * w.length := by
  rw [← h.length, whole hy, pow_length]

theorem special_mod (x : Fin n) (hx : row x ≤ rowZero row h0) : x.1 % w.length = 0 := by
  have hl := h.length
  have hn := n_eq h hy
  have hwp : 0 < w.length := List.length_pos_iff.2 hs.ne
  rw [row_le_zero_iff h h0] at hx
  have hp := hs.prefix_of_le x.1 (by rw [hl]; exact x.2) hx
  have hlen := hp.length_le
  rw [List.length_drop, hl] at hlen
  have hx2 := x.2
  by_contra hne
  generalize ht : x.1 % w.length = t at *
  have htl : t < w.length := by rw [← ht]; exact Nat.mod_lt _ hwp
  refine (hs.lyndon t (by omega) htl).2 ?_
  rw [List.prefix_iff_eq_take, List.length_drop]
  apply List.ext_getElem
  · simp
  · intro i h1 h2
    rw [List.length_drop] at h1
    have e1 := List.IsPrefix.getElem hp (i := i) (by omega)
    rw [List.getElem_drop, List.getElem_take, e1, List.getElem_drop]
    have e2 := pow_getD w (m + 2) (x.1 + i) (by rw [← hn]; omega)
    rw [← whole hy, List.getD_eq_getElem?_getD, List.getElem?_eq_getElem (by rw [hl]; omega),
      List.getD_eq_getElem?_getD] at e2
    rw [Option.getD_some] at e2
    rw [e2, Nat.add_mod, ht, Nat.mod_eq_of_lt (show i < w.length by omega), Nat.mod_eq_of_lt (by omega),
      List.getElem?_eq_getElem (by omega), Option.getD_some]

omit hs in
theorem special_all (M : Nat) (x : Fin n) (hx : x.1 % w.length = 0) :
    ring (w ++ y) M x = ring (w ++ y) M ⟨0, h0⟩ := by
  have hn := n_eq h hy
  apply List.ext_getElem
  · rw [ring_length, ring_length]
  · intro i h1 h2
    rw [ring_length] at h1
    rw [ring_getElem _ _ _ h1, ring_getElem _ _ _ h1, whole hy,
      pow_getD _ _ _ (by rw [← hn]; exact Nat.mod_lt _ h0), pow_getD _ _ _ (by rw [← hn]; exact Nat.mod_lt _ h0)]
    have hdvd : w.length ∣ n := ⟨m + 2, by rw [hn, Nat.mul_comm]⟩
    rw [Nat.mod_mod_of_dvd _ hdvd, Nat.mod_mod_of_dvd _ hdvd, Nat.add_mod, hx]
    simp

include h0 in
theorem word_power (M : Nat) (x : Fin n) : word L M (row x) = ring (w ++ y) M x :=
  h.word_eq h0 M (fun m' _ x hx => special_all h h0 hy m' x (special_mod h hs h0 hy x hx)) M (Nat.le_refl _) x

theorem word_special (M : Nat) (k : Fin n) (hk : k ≤ rowZero row h0) :
    word L M k = ring (w ++ y) M ⟨0, h0⟩ := by
  obtain ⟨x, rfl⟩ := row.surjective k
  rw [word_power h hs h0 hy, special_all h h0 hy M x (special_mod h hs h0 hy x hk)]

theorem step_special (k : Fin n) (hk : k ≤ rowZero row h0) : (psi L)^[w.length] k ≤ rowZero row h0 := by
  have hl := h.length
  have hn := n_eq h hy
  have e1 := word_drop L w.length n k
  rw [word_special h hs h0 hy _ k hk, ring_drop] at e1
  have e2 : (nx^[w.length] (⟨0, h0⟩ : Fin n)).1 % w.length = 0 := by
    have hdvd : w.length ∣ n := ⟨m + 2, by rw [hn, Nat.mul_comm]⟩
    rw [nx_iterate_val, Nat.mod_mod_of_dvd _ hdvd]
    simp
  rw [special_all h h0 hy n _ e2, ring_eq_rotation hl, rotation_zero] at e1
  obtain ⟨x, hx⟩ := row.surjective ((psi L)^[w.length] k)
  rw [← hx] at e1 ⊢
  rw [word_power h hs h0 hy, ring_eq_rotation hl] at e1
  rw [row_le_zero_iff h h0]
  conv => rhs; rw [e1]
  exact prefix_le_append _ _

theorem step_lt (k k' : Fin n) (hk' : k' ≤ rowZero row h0) (hlt : k < k') :
    (psi L)^[w.length] k < (psi L)^[w.length] k' :=
  psi_iterate_lt L _ k k' hlt (by
    rw [word_special h hs h0 hy _ k (le_of_lt (lt_of_lt_of_le hlt hk')), word_special h hs h0 hy _ k' hk'])

theorem step_ge (k : Nat) (hk : k < n) (hle : (⟨k, hk⟩ : Fin n) ≤ rowZero row h0) :
    k ≤ ((psi L)^[w.length] ⟨k, hk⟩).1 := by
  induction k with
  | zero => exact Nat.zero_le _
  | succ k ih =>
    have h1 := ih (by omega) (le_trans (Nat.le_succ k : (⟨k, by omega⟩ : Fin n) ≤ ⟨k + 1, hk⟩) hle)
    have h2 : (psi L)^[w.length] ⟨k, by omega⟩ < (psi L)^[w.length] ⟨k + 1, hk⟩ :=
      step_lt h hs h0 hy _ _ hle (Nat.lt_succ_self k)
    have h3 : ((psi L)^[w.length] ⟨k, by omega⟩).1 < ((psi L)^[w.length] ⟨k + 1, hk⟩).1 := h2
    omega

theorem step_fixed (d : Nat) (k : Fin n) (hk : k.1 + d = (rowZero row h0).1) : (psi L)^[w.length] k = k := by
  induction d generalizing k with
  | zero =>
    have hkz : k = rowZero row h0 := Fin.ext hk
    have h1 : k.1 ≤ ((psi L)^[w.length] k).1 := step_ge h hs h0 hy k.1 k.2 (le_of_eq hkz)
    have h2 := step_special h hs h0 hy k (le_of_eq hkz)
    apply Fin.ext
    have h2 : ((psi L)^[w.length] k).1 ≤ (rowZero row h0).1 := h2
    omega
  | succ d ih =>
    have hlt : k.1 + 1 < n := by have := (rowZero row h0).2; omega
    have e := ih ⟨k.1 + 1, hlt⟩ (by simp only; omega)
    have hle : (⟨k.1 + 1, hlt⟩ : Fin n) ≤ rowZero row h0 := by
      show k.1 + 1 ≤ (rowZero row h0).1
      omega
    have h2 : (psi L)^[w.length] k < (psi L)^[w.length] ⟨k.1 + 1, hlt⟩ :=
      step_lt h hs h0 hy k _ hle (Nat.lt_succ_self k.1)
    rw [e] at h2
    have h2 : ((psi L)^[w.length] k).1 < k.1 + 1 := h2
    have h1 : k.1 ≤ ((psi L)^[w.length] k).1 := step_ge h hs h0 hy k.1 k.2 (show k.1 ≤ (rowZero row h0).1 by omega)
    apply Fin.ext
    omega

end Power

/-- The summary for one string. -/
theorem summary (h : Rows n (w ++ y) L row) (hs : Smallest w y) (h0 : 0 < n) :
    word L w.length ⟨0, h0⟩ = w ∧ ∃ X, (psi L)^[w.length] X = row ⟨w.length % n, Nat.mod_lt _ h0⟩ ∧
      word L w.length X = w ∧
      (((∀ m, y ≠ pow w (m + 1)) ∧ X = rowZero row h0) ∨
        ((∃ m, y = pow w (m + 1)) ∧ X = row ⟨w.length % n, Nat.mod_lt _ h0⟩)) := by
  refine ⟨word_first h hs h0, ?_⟩
  by_cases hp : ∃ m, y = pow w (m + 1)
  · obtain ⟨m, hy⟩ := hp
    have hn := n_eq h hy
    have hwp : 0 < w.length := List.length_pos_iff.2 hs.ne
    have hlt : w.length < n := by
      rw [hn, Nat.add_mul]; omega
    have hle : row ⟨w.length % n, Nat.mod_lt _ h0⟩ ≤ rowZero row h0 := by
      rw [row_le_zero_iff h h0]
      simp only [Nat.mod_eq_of_lt hlt, List.drop_left]
      conv => rhs; rw [whole hy]
      rw [hy]
      have : pow w (m + 2) = pow w (m + 1) ++ w := by
        simp [pow, List.replicate_succ']
      rw [this]
      exact prefix_le_append _ _
    refine ⟨row ⟨w.length % n, Nat.mod_lt _ h0⟩, ?_, ?_, Or.inr ⟨⟨m, hy⟩, rfl⟩⟩
    · obtain ⟨d, hd⟩ := Nat.exists_eq_add_of_le (show (row ⟨w.length % n, Nat.mod_lt _ h0⟩).1 ≤ (rowZero row h0).1 from hle)
      exact step_fixed h hs h0 hy d _ hd.symm
    · rw [word_special h hs h0 hy _ _ hle, ring_eq_take h.length _ (by omega), rotation_zero, List.take_left]
  · have hp : ∀ m, y ≠ pow w (m + 1) := fun m e => hp ⟨m, e⟩
    exact ⟨rowZero row h0, walk h hs h0 hp _ (Nat.le_refl _), word_zero h hs h0, Or.inl ⟨hp, rfl⟩⟩

/-- Column and row of position 0 give the string. -/
theorem string_of_rowZero {r r' : List UInt8} {row row' : Equiv.Perm (Fin n)} (h : Rows n r L row)
    (h' : Rows n r' L row') (h0 : 0 < n) (hK : rowZero row h0 = rowZero row' h0) : r = r' := by
  have hnext : ∀ t, (nextRow row).symm t = (nextRow row').symm t := by
    intro t
    refine perm_agree _ _ _ _ (h.nextRow_lt h0) (h'.nextRow_lt h0) t (fun u => ?_)
    rw [hK]
  have hrow : ∀ d, d < n → ∀ x : Fin n, x.1 + 1 + d = n → row x = row' x := by
    intro d
    induction d with
    | zero =>
      intro _ x hx
      have e := (nx_eq_zero_iff h0 x).2 hx
      have := hnext (rowZero row h0)
      conv at this => rhs; rw [hK]
      rw [rowZero, rowZero, ← e, nextRow_symm, nextRow_symm] at this
      exact this
    | succ d ih =>
      intro hd x hx
      have hv := nx_val x (by omega)
      have e := ih (by omega) (nx x) (by omega)
      have := hnext (row (nx x))
      conv at this => rhs; rw [e]
      rw [nextRow_symm, nextRow_symm] at this
      exact this
  have hall : ∀ x, row x = row' x := fun x => hrow (n - (x.1 + 1)) (by omega) x (by have := x.2; omega)
  apply List.ext_getElem?
  intro i
  by_cases hi : i < n
  · have e1 := h.column ⟨i, hi⟩
    have e2 := h'.column ⟨i, hi⟩
    rw [e1, e2, hall]
  · rw [List.getElem?_eq_none (by rw [h.length]; omega), List.getElem?_eq_none (by rw [h'.length]; omega)]

theorem border {w w' : List UInt8} {y' : List UInt8} (hs' : Smallest w' y') (a : Nat) (hw : w ≠ [])
    (hlen : w'.length = w.length + a) (ha : 0 < a) (h1 : w'.take w.length = w) (h2 : w'.drop a = w) : False := by
  have := List.length_pos_iff.2 hw
  refine (hs'.lyndon a ha (by omega)).2 ?_
  rw [h2, ← h1]
  exact List.take_prefix _ _

theorem length_le {w y w' y' : List UInt8} {row row' : Equiv.Perm (Fin n)} (h : Rows n (w ++ y) L row)
    (hs : Smallest w y) (h' : Rows n (w' ++ y') L row') (hs' : Smallest w' y') (h0 : 0 < n)
    (hptr : row ⟨w.length % n, Nat.mod_lt _ h0⟩ = row' ⟨w'.length % n, Nat.mod_lt _ h0⟩) :
    w'.length ≤ w.length := by
  obtain ⟨a1, X, a2, a3, -⟩ := summary h hs h0
  obtain ⟨b1, X', b2, b3, -⟩ := summary h' hs' h0
  by_contra hlt
  obtain ⟨a, ha⟩ := Nat.exists_eq_add_of_lt (Nat.lt_of_not_le hlt)
  have hlen : w'.length = w.length + (a + 1) := by omega
  refine border hs' (a + 1) hs.ne hlen (by omega) ?_ ?_
  · rw [← b1, hlen, word_take, a1]
  · have hX : (psi L)^[a + 1] X' = X := by
      apply psi_iterate_inj L w.length
      rw [a2, hptr, ← b2, hlen, Function.iterate_add_apply (psi L) w.length (a + 1)]
    have e : w' = word L (a + 1 + w.length) X' := by
      rw [show a + 1 + w.length = w'.length by omega, b3]
    rw [e, word_drop, hX, a3]

/-- Column and pointer determine the string. -/
theorem injective {w y w' y' : List UInt8} {row row' : Equiv.Perm (Fin n)} (h : Rows n (w ++ y) L row)
    (hs : Smallest w y) (h' : Rows n (w' ++ y') L row') (hs' : Smallest w' y') (h0 : 0 < n)
    (hptr : row ⟨w.length % n, Nat.mod_lt _ h0⟩ = row' ⟨w'.length % n, Nat.mod_lt _ h0⟩) :
    y ++ w = y' ++ w' := by
  have hlen : w.length = w'.length :=
    Nat.le_antisymm (length_le h' hs' h hs h0 hptr.symm) (length_le h hs h' hs' h0 hptr)
  obtain ⟨a1, X, a2, a3, a4⟩ := summary h hs h0
  obtain ⟨b1, X', b2, b3, b4⟩ := summary h' hs' h0
  have hw : w = w' := by rw [← a1, hlen, b1]
  subst hw
  have hX : X = X' := by
    apply psi_iterate_inj L w.length
    rw [a2, b2, hptr]
  have hl := h.length
  have hl' := h'.length
  rw [List.length_append] at hl hl'
  have hwp : 0 < w.length := List.length_pos_iff.2 hs.ne
  -- a power and a string that is no power cannot meet
  have mixed : ∀ {y y' : List UInt8} {row row' : Equiv.Perm (Fin n)}, Rows n (w ++ y) L row → Rows n (w ++ y') L row' →
      (∃ m, y = pow w (m + 1)) →
      rowZero row' h0 = row' ⟨w.length % n, Nat.mod_lt _ h0⟩ → False := by
    intro y y' row row' h h' ⟨m, hm⟩ e
    have hl := h.length
    rw [List.length_append, hm, pow_length, Nat.add_mul] at hl
    rw [rowZero, row'.injective.eq_iff, Fin.mk.injEq, Nat.mod_eq_of_lt (by omega)] at e
    omega
  rcases a4 with ⟨p1, p2⟩ | ⟨⟨m, p1⟩, p2⟩ <;> rcases b4 with ⟨q1, q2⟩ | ⟨⟨m', q1⟩, q2⟩
  · have := string_of_rowZero h h' h0 (by rw [← p2, ← q2, hX])
    rw [List.append_cancel_left this]
  · exact (mixed h' h ⟨m', q1⟩ (by rw [← p2, hX, q2, hptr])).elim
  · exact (mixed h h' ⟨m, p1⟩ (by rw [← q2, ← hX, p2, hptr])).elim
  · have : y.length = y'.length := by omega
    rw [p1, q1, pow_length, pow_length] at this
    have := Nat.eq_of_mul_eq_mul_right hwp this
    rw [p1, q1, this]

/-! ### The code's transform -/

theorem smallest_of_at {s : List UInt8} {f : Nat} (h : SmallestSuffixAt s f) : Smallest (s.drop f) (s.take f) where
  ne := by
    intro e
    have := congrArg List.length e
    have := h.1
    simp at *; omega
  le := by
    intro p hp
    rw [List.take_append_drop] at hp ⊢
    exact h.2 p hp

/-- Column and pointer of `bwt`, as `Rows`. -/
theorem bwt_rows (s : List UInt8) (hne : s ≠ []) (f : Nat) (hf : duval s = Res.ok f) (hfl : f < s.length)
    (sa : List Nat) (hsa : buildSuffixArray (rotation s f) = Res.ok sa)
    (hsa2 : IsSuffixArray (rotation s f) sa) (n : Nat) (hn : s.length = n) (h0 : 0 < n) :
    ∃ (L : Fin n → UInt8) (row : Equiv.Perm (Fin n)), Rows n (rotation s f) L row ∧
      bwt s = Res.ok (List.ofFn L, (row ⟨(s.length - f) % n, Nat.mod_lt _ h0⟩).1) := by
  subst hn
  have hrl : (rotation s f).length = s.length := rotation_length s f (by omega)
  have hpos : 0 < s.length := List.length_pos_iff.2 hne
  generalize hr : rotation s f = r at *
  obtain ⟨hperm, hsorted⟩ := hsa2
  have hrot : rotateDuval s = Res.ok (r, f) := by
    unfold rotateDuval
    rw [hf, Res.ok_bind, if_pos (by omega), ← hr]
    rfl
  have hkperm : (sa.filter fun x => decide (x < s.length)).Perm (List.range s.length) := by
    have := hperm.filter (fun x => decide (x < s.length))
    refine this.trans ?_
    rw [hrl, List.range_succ, List.filter_append]
    simp only [List.filter_cons, Nat.lt_irrefl, decide_false, List.filter_nil]
    rw [if_neg (by simp), List.append_nil, List.filter_eq_self.2]
    intro x hx; simpa using hx
  have hksorted : (sa.filter fun x => decide (x < s.length)).Pairwise fun i j => r.drop i < r.drop j :=
    hsorted.filter _
  generalize hk : sa.filter (fun x => decide (x < s.length)) = kept at *
  have hklt : ∀ x ∈ kept, x < r.length := by
    intro x hx
    have := hkperm.mem_iff.1 hx
    rw [hrl]; simpa using this
  have hkl : kept.length = s.length := by rw [hkperm.length_eq]; simp
  have hcol := bwtColumn_eq r kept hklt
  rw [hrl] at hcol
  have hnodup : kept.Nodup := hkperm.nodup_iff.2 List.nodup_range
  -- positions of the rows
  let pos : Fin s.length → Fin s.length := fun k =>
    ⟨kept[k.1]'(by rw [hkl]; exact k.2), Nat.lt_of_lt_of_le (hklt _ (List.getElem_mem _)) (Nat.le_of_eq hrl)⟩
  have hposinj : Function.Injective pos := by
    intro a b hab
    have := Fin.mk.inj_iff.1 hab
    exact Fin.ext ((hnodup.getElem_inj_iff).1 this)
  let posE : Equiv.Perm (Fin s.length) := Equiv.ofBijective pos ((Finite.injective_iff_bijective).1 hposinj)
  have hposE : ∀ k, (posE k).1 = kept[k.1]'(by rw [hkl]; exact k.2) := fun k => rfl
  let L : Fin s.length → UInt8 := fun k => (rotation r (posE k).1).getLastD 0
  have horder : ∀ a b : Fin s.length, a < b ↔ r.drop (posE a).1 < r.drop (posE b).1 := by
    have fwd : ∀ a b : Fin s.length, a < b → r.drop (posE a).1 < r.drop (posE b).1 := by
      intro a b hab
      exact List.pairwise_iff_getElem.1 hksorted a.1 b.1 (by rw [hkl]; exact a.2) (by rw [hkl]; exact b.2) hab
    intro a b
    refine ⟨fwd a b, fun h => ?_⟩
    rcases lt_trichotomy a b with hab | hab | hab
    · exact hab
    · subst hab; exact absurd h (List.lt_irrefl _)
    · exact absurd (List.lt_trans h (fwd b a hab)) (List.lt_irrefl _)
  refine ⟨L, posE.symm, ⟨hrl, ?_, ?_⟩, ?_⟩
  · intro x y
    rw [horder, Equiv.apply_symm_apply, Equiv.apply_symm_apply]
  · intro x
    simp only [L, Equiv.apply_symm_apply]
    have hx := x.2
    have hxr : x.1 < r.length := by omega
    rw [List.getElem?_eq_getElem hxr]
    by_cases hlast : x.1 + 1 = s.length
    · have : (nx x).1 = 0 := by simp [nx, hlast]
      rw [this, rotation_zero, List.getLastD_eq_getLast?, List.getLast?_eq_getElem?]
      simp only [show r.length - 1 = x.1 by omega, List.getElem?_eq_getElem hxr, Option.getD_some]
    · rw [nx_val x hlast, rotation, List.getLastD_eq_getLast?, List.getLast?_append, List.getLast?_take,
        if_neg (by omega)]
      simp only [show x.1 + 1 - 1 = x.1 by omega, List.getElem?_eq_getElem hxr]
      simp
  · have hcolL : kept.map (fun x => (rotation r x).getLastD 0) = List.ofFn L := by
      apply List.ext_getElem
      · simp [hkl]
      · intro i h1 h2
        simp [L, hposE]
    have hfind : kept.findIdx? (fun x => x == (s.length - f) % s.length) =
        some (posE.symm ⟨(s.length - f) % s.length, Nat.mod_lt _ h0⟩).1 := by
      rw [List.findIdx?_eq_some_iff_getElem]
      generalize hp : posE.symm ⟨(s.length - f) % s.length, Nat.mod_lt _ h0⟩ = p
      have e : posE p = ⟨(s.length - f) % s.length, Nat.mod_lt _ h0⟩ := by
        rw [← hp, Equiv.apply_symm_apply]
      have e1 := congrArg Fin.val e
      rw [hposE] at e1
      simp only at e1
      refine ⟨by rw [hkl]; exact p.2, by simpa using e1, ?_⟩
      intro j hj hc
      have hjl : j < kept.length := by have := p.2; omega
      have hc : kept[j] = (s.length - f) % s.length := by simpa using hc
      have := (hnodup.getElem_inj_iff).1 (hc.trans e1.symm)
      omega
    unfold bwt
    rw [hrot]
    simp only [Res.ok_bind, hsa]
    rw [hk, hcol]
    simp only [Res.ok_bind]
    rw [subU, if_pos (by omega), Res.ok_bind, if_neg (by omega), hfind, hcolL]
    rfl

end Inj
end Ribzip2
