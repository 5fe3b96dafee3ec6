import Verif.Proofs.BwtInjective
import Mathlib.Algebra.BigOperators.Group.Finset.Basic
import Mathlib.Algebra.Order.BigOperators.Group.Finset
/- The code's transform is the sorted-rotation transform for no other blocks than the safe ones. -/
namespace Ribzip2
namespace Inj
open Spec

variable {n : Nat} {r : List UInt8}

/-! ### Rotations in order -/

/-- Rotations in order; of equal ones the later start comes first. -/
def rotLt (r : List UInt8) (x y : Fin n) : Prop :=
  rotation r x.1 < rotation r y.1 ∨ (rotation r x.1 = rotation r y.1 ∧ y < x)

theorem rotLt_irrefl (x : Fin n) : ¬ rotLt r x x := by
  rintro (h | h)
  · exact absurd h (List.lt_irrefl _)
  · exact absurd h.2 (lt_irrefl _)

theorem rotLt_trans {x y z : Fin n} (h1 : rotLt r x y) (h2 : rotLt r y z) : rotLt r x z := by
  rcases h1 with h1 | ⟨h1, h1'⟩ <;> rcases h2 with h2 | ⟨h2, h2'⟩
  · exact Or.inl (List.lt_trans h1 h2)
  · rw [h2] at h1; exact Or.inl h1
  · rw [← h1] at h2; exact Or.inl h2
  · exact Or.inr ⟨h1.trans h2, lt_trans h2' h1'⟩

theorem rotLt_total {x y : Fin n} (h : x ≠ y) : rotLt r x y ∨ rotLt r y x := by
  by_cases he : rotation r x.1 = rotation r y.1
  · rcases lt_or_gt_of_ne h with h | h
    · exact Or.inr (Or.inr ⟨he.symm, h⟩)
    · exact Or.inl (Or.inr ⟨he, h⟩)
  · rcases List.le_total (rotation r x.1) (rotation r y.1) with h | h
    · exact Or.inl (Or.inl ((List.le_iff_lt_or_eq.1 h).resolve_right he))
    · exact Or.inr (Or.inl ((List.le_iff_lt_or_eq.1 h).resolve_right (Ne.symm he)))

section
open Classical in
/-- The row of the rotation at `x`. -/
noncomputable def rotRank (r : List UInt8) (x : Fin n) : Nat := (Finset.univ.filter fun u => rotLt r u x).card

theorem rotRank_lt_of {x y : Fin n} (h : rotLt r x y) : rotRank r x < rotRank r y := by
  classical
  unfold rotRank
  apply Finset.card_lt_card
  rw [Finset.ssubset_iff_of_subset]
  · exact ⟨x, by simpa using h, by simpa using rotLt_irrefl x⟩
  · intro u hu
    simp only [Finset.mem_filter, Finset.mem_univ, true_and] at hu ⊢
    exact rotLt_trans hu h

theorem rotRank_lt_iff {x y : Fin n} : rotRank r x < rotRank r y ↔ rotLt r x y := by
  refine ⟨fun h => ?_, rotRank_lt_of⟩
  by_cases he : x = y
  · subst he; omega
  · rcases rotLt_total (r := r) he with h' | h'
    · exact h'
    · have := rotRank_lt_of h'; omega

theorem rotRank_lt (x : Fin n) : rotRank r x < n := by
  classical
  unfold rotRank
  have : (Finset.univ.filter fun u => rotLt r u x).card < (Finset.univ : Finset (Fin n)).card := by
    apply Finset.card_lt_card
    rw [Finset.ssubset_iff_of_subset (Finset.filter_subset _ _)]
    exact ⟨x, by simp, by simpa using rotLt_irrefl x⟩
  simpa using this
end

theorem rotRow_injective : Function.Injective fun x : Fin n => (⟨rotRank r x, rotRank_lt x⟩ : Fin n) := by
  intro x y h
  have h := Fin.mk.inj_iff.1 h
  by_contra hne
  rcases rotLt_total (r := r) hne with h' | h' <;> have := rotRank_lt_of h' <;> omega

/-- Rows of the rotations, as a permutation. -/
noncomputable def rotRow (r : List UInt8) (n : Nat) : Equiv.Perm (Fin n) :=
  Equiv.ofBijective _ (Finite.injective_iff_bijective.1 (rotRow_injective (r := r)))

theorem rotRow_val (x : Fin n) : (rotRow r n x).1 = rotRank r x := rfl

theorem rotRow_lt (x y : Fin n) : rotRow r n x < rotRow r n y ↔ rotLt r x y := by
  rw [← rotRank_lt_iff]; rfl

/-- The sorted matrix of the rotations. -/
theorem rows_eq (hn : r.length = n) (rows : List (List UInt8)) (hp : rows.Perm (rotations r))
    (hs : rows.Pairwise (· ≤ ·)) : rows = List.ofFn fun k => rotation r ((rotRow r n).symm k).1 := by
  apply List.Perm.eq_of_pairwise (le := (· ≤ ·))
  · intro a b _ _ h1 h2; exact List.le_antisymm h1 h2
  · exact hs
  · rw [List.pairwise_ofFn]
    intro i j hij
    have : rotLt r ((rotRow r n).symm i) ((rotRow r n).symm j) := by
      rw [← rotRow_lt]; simpa using hij
    rcases this with h | h
    · exact List.le_of_lt h
    · rw [h.1]; exact List.le_refl _
  · refine hp.trans ?_
    have e : rotations r = List.ofFn fun x : Fin n => rotation r x.1 := by
      apply List.ext_getElem
      · simp [rotations, hn]
      · intro i h1 h2; simp [rotations]
    rw [e]
    exact (Equiv.Perm.ofFn_comp_perm (rotRow r n).symm (fun x : Fin n => rotation r x.1)).symm

theorem rotation_nx (hn : r.length = n) (x : Fin n) : rotation r (nx x).1 = rotl1 (rotation r x.1) := by
  have hx := x.2
  rw [rotl1_rotation r x.1 (by omega)]
  by_cases h : x.1 + 1 = n
  · have : (nx x).1 = 0 := by simp [nx, h]
    rw [this, h, rotation_zero, ← hn, rotation_self]
  · rw [nx_val x h]

theorem rotation_cons (hn : r.length = n) (x : Fin n) :
    ∃ t, rotation r x.1 = r.getD x.1 0 :: t ∧ t.length + 1 = n := by
  have hx := x.2
  have hxr : x.1 < r.length := by omega
  refine ⟨r.drop (x.1 + 1) ++ r.take x.1, ?_, ?_⟩
  · rw [rotation, List.drop_eq_getElem_cons hxr, List.getD_eq_getElem?_getD, List.getElem?_eq_getElem hxr]
    rfl
  · simp; omega

theorem rotation_getLast (hn : r.length = n) (x : Fin n) :
    (rotation r (nx x).1).getLastD 0 = r.getD x.1 0 := by
  obtain ⟨t, e, -⟩ := rotation_cons hn x
  rw [rotation_nx hn, e]
  simp [rotl1]

theorem lt_append {X Y : List UInt8} (a b : List UInt8) (hl : X.length = Y.length) (h : X < Y) :
    X ++ a < Y ++ b := by
  apply append_lt_append_of_lt h
  intro hp
  have := hp.eq_of_length hl
  subst this
  exact absurd h (List.lt_irrefl _)

/-- Order of two rotations from first byte and the rotations one further. -/
theorem rotLt_step (hn : r.length = n) {u z : Fin n} (h : rotLt r u z) :
    r.getD u.1 0 < r.getD z.1 0 ∨ (r.getD u.1 0 = r.getD z.1 0 ∧
      (rotation r (nx u).1 < rotation r (nx z).1 ∨ (rotation r (nx u).1 = rotation r (nx z).1 ∧ z < u))) := by
  obtain ⟨t, e, hl⟩ := rotation_cons hn u
  obtain ⟨t', e', hl'⟩ := rotation_cons hn z
  rw [rotation_nx hn, rotation_nx hn, e, e']
  rcases h with h | ⟨h, h'⟩
  · rw [e, e', List.cons_lt_cons_iff] at h
    rcases h with h | ⟨h1, h2⟩
    · exact Or.inl h
    · refine Or.inr ⟨h1, Or.inl ?_⟩
      simp only [rotl1, List.drop_succ_cons, List.drop_zero, List.take_succ_cons, List.take_zero]
      exact lt_append _ _ (by omega) h2
  · rw [e, e'] at h
    rw [h]
    exact Or.inr ⟨(List.cons.inj h).1, Or.inr ⟨rfl, h'⟩⟩

/-! ### Same column, same row of the string: same order -/

section
variable {L : Fin n → UInt8} {row : Equiv.Perm (Fin n)} (h : Rows n r L row) (h0 : 0 < n)
  (hcol : ∀ x, r[x.1]? = some (L (rotRow r n (nx x))))
  (hK : rotRow r n ⟨0, h0⟩ = row ⟨0, h0⟩)
include h hcol hK

theorem step_down (z : Fin n) (hz : z.1 + 1 ≠ n) (hlt : rotRow r n (nx z) < row (nx z)) :
    rotRow r n z < row z := by
  classical
  have hL : ∀ x, L (rotRow r n (nx x)) = r.getD x.1 0 := by
    intro x; rw [List.getD_eq_getElem?_getD, hcol x]; rfl
  have hn := h.length
  show (rotRow r n z).1 < (row z).1
  have e1 : (row z).1 = (Finset.univ.filter fun k => keyLt' L (rowZero row h0) k (row (nx z))).card := by
    rw [← rank_eq (nextRow row) _ (h.nextRow_lt h0), nextRow_symm]
  have hzz : nx z ≠ ⟨0, h0⟩ := fun e => hz ((nx_eq_zero_iff h0 z).1 e)
  have hb : row (nx z) ≠ rowZero row h0 := fun e => hzz (row.injective e)
  have key : ∀ k, (∃ u, rotRow r n (nx u) = k ∧ (u = z ∨ rotLt r u z)) → keyLt' L (rowZero row h0) k (row (nx z)) := by
    rintro k ⟨u, rfl, hu⟩
    unfold keyLt'
    rw [hL, ← h.getD z]
    rcases hu with rfl | hu
    · refine Or.inr ⟨rfl, Or.inr ⟨?_, hb, hlt⟩⟩
      rw [rowZero, ← hK]
      exact fun e => hzz ((rotRow r n).injective e)
    · rcases rotLt_step hn hu with hu' | ⟨hu1, hu2⟩
      · exact Or.inl hu'
      · refine Or.inr ⟨hu1, ?_⟩
        by_cases hul : u.1 + 1 = n
        · left
          rw [(nx_eq_zero_iff h0 u).2 hul, hK]
          exact ⟨rfl, hb⟩
        · right
          refine ⟨?_, hb, lt_trans ?_ hlt⟩
          · rw [rowZero, ← hK]
            exact fun e => hul ((nx_eq_zero_iff h0 u).1 ((rotRow r n).injective e))
          · rw [rotRow_lt]
            rcases hu2 with hu2 | ⟨hu2, hu3⟩
            · exact Or.inl hu2
            · refine Or.inr ⟨hu2, ?_⟩
              show (nx z).1 < (nx u).1
              rw [nx_val _ hz, nx_val _ hul]
              exact Nat.succ_lt_succ hu3
  rw [e1, rotRow_val]
  unfold rotRank
  have hinj : Function.Injective fun u : Fin n => rotRow r n (nx u) :=
    (rotRow r n).injective.comp nx_injective
  rw [← Finset.card_map ⟨_, hinj⟩]
  apply Finset.card_lt_card
  rw [Finset.ssubset_iff_of_subset]
  · refine ⟨rotRow r n (nx z), by simpa using key _ ⟨z, rfl, Or.inl rfl⟩, ?_⟩
    simp only [Finset.mem_map, Finset.mem_filter, Finset.mem_univ, true_and, Function.Embedding.coeFn_mk, not_exists,
      not_and]
    intro u hu e
    rw [hinj e] at hu
    exact rotLt_irrefl _ hu
  · intro k hk
    simp only [Finset.mem_map, Finset.mem_filter, Finset.mem_univ, true_and, Function.Embedding.coeFn_mk] at hk ⊢
    obtain ⟨u, hu, e⟩ := hk
    exact key k ⟨u, e, Or.inr hu⟩

theorem rows_agree (x : Fin n) : rotRow r n x = row x := by
  have hge : ∀ x : Fin n, (row x).1 ≤ (rotRow r n x).1 := by
    have : ∀ i (hi : i < n), ¬ rotRow r n ⟨i, hi⟩ < row ⟨i, hi⟩ := by
      intro i
      induction i with
      | zero => intro hi; rw [hK]; exact lt_irrefl _
      | succ i ih =>
        intro hi hlt
        have e : nx (⟨i, by omega⟩ : Fin n) = ⟨i + 1, hi⟩ := Fin.ext (nx_val _ (by simp only; omega))
        refine ih (by omega) (step_down h h0 hcol hK _ (by simp only; omega) ?_)
        rw [e]; exact hlt
    intro x
    exact Nat.le_of_not_lt (this x.1 x.2)
  have hsum : ∑ x : Fin n, (row x).1 = ∑ x : Fin n, (rotRow r n x).1 := by
    rw [Equiv.sum_comp row (fun k : Fin n => k.1), Equiv.sum_comp (rotRow r n) (fun k : Fin n => k.1)]
  have := (Finset.sum_eq_sum_iff_of_le (fun x _ => hge x)).1 hsum x (Finset.mem_univ x)
  exact Fin.ext this.symm

theorem safe_of_column : SuffixesOrderRotations r := by
  intro i hi j hj hlt
  have hn := h.length
  have e := (h.order ⟨i, by omega⟩ ⟨j, by omega⟩).2 hlt
  rw [← rows_agree h h0 hcol hK, ← rows_agree h h0 hcol hK, rotRow_lt] at e
  rcases e with e | e
  · exact List.le_of_lt e
  · rw [e.1]; exact List.le_refl _
end

/-! ### From the transform to the row of the string -/

/-- If row `K` of the suffix order holds `r` in the sorted matrix, `r` has the same row in both orders. -/
theorem rowZero_agree {L : Fin n → UInt8} {row : Equiv.Perm (Fin n)} (h : Rows n r L row) (h0 : 0 < n)
    (hr : rotation r ((rotRow r n).symm (row ⟨0, h0⟩)).1 = r) : rotRow r n ⟨0, h0⟩ = row ⟨0, h0⟩ := by
  classical
  have hn := h.length
  apply le_antisymm
  · show rotRank r ⟨0, h0⟩ ≤ (row ⟨0, h0⟩).1
    have e := rank_eq row.symm (fun x y => r.drop x.1 < r.drop y.1) (by
      intro i j; rw [← h.order]; simp) ⟨0, h0⟩
    rw [Equiv.symm_symm] at e
    rw [e]
    unfold rotRank
    apply Finset.card_le_card
    intro u hu
    simp only [Finset.mem_filter, Finset.mem_univ, true_and] at hu ⊢
    have hu2 := u.2
    have hle : rotation r u.1 ≤ r := by
      rcases hu with hu | hu
      · rw [rotation_zero] at hu; exact List.le_of_lt hu
      · rw [hu.1, rotation_zero]; exact List.le_refl _
    have hd : r.drop u.1 ≤ r := List.le_trans (prefix_le_append _ (r.take u.1)) hle
    rw [List.drop_zero]
    rcases List.le_iff_lt_or_eq.1 hd with hd | hd
    · exact hd
    · exfalso
      have := congrArg List.length hd
      have hu0 : u = ⟨0, h0⟩ := by
        apply Fin.ext
        simp only [List.length_drop] at this
        simp only
        omega
      rw [hu0] at hu
      exact rotLt_irrefl _ hu
  · rw [← not_lt]
    intro hlt
    have h2 := (rotRow_lt (r := r) ⟨0, h0⟩ ((rotRow r n).symm (row ⟨0, h0⟩))).1 (by simpa using hlt)
    rcases h2 with h2 | ⟨-, h2⟩
    · rw [hr, rotation_zero] at h2; exact absurd h2 (List.lt_irrefl _)
    · exact absurd h2 (by simp [Fin.lt_def])

/-- In the sorted matrix the standard permutation leads from a row to the row rotated by one. -/
theorem psi_rotation (L : Fin n → UInt8) (R : Fin n → List UInt8) (s : List UInt8)
    (hp : (List.ofFn R).Perm (rotations s)) (hs : (List.ofFn R).Pairwise (· ≤ ·))
    (hL : ∀ k, L k = (R k).getLastD 0) (k : Fin n) : R (psi L k) = rotl1 (R k) := by
  have hmem : ∀ k, R k ∈ rotations s := fun k => hp.mem_iff.1 (List.mem_ofFn.2 ⟨k, rfl⟩)
  rw [List.pairwise_ofFn] at hs
  have e : List.ofFn (fun k => rotr1 (R (psi L k))) = List.ofFn R := by
    apply List.Perm.eq_of_pairwise (le := (· ≤ ·))
    · intro a b _ _ h1 h2; exact List.le_antisymm h1 h2
    · rw [List.pairwise_ofFn]
      intro i j hij
      apply rotr1_le
      rw [← hL, ← hL]
      rcases (psi_lt L i j).1 hij with h | ⟨h, h'⟩
      · exact Or.inl h
      · refine Or.inr ⟨h, dropLast_le (hs h') ?_⟩
        rw [(rotations_ne_nil s _ (hmem _)).2, (rotations_ne_nil s _ (hmem _)).2]
    · rw [List.pairwise_ofFn]; exact hs
    · refine (Equiv.Perm.ofFn_comp_perm (psi L) (fun k => rotr1 (R k))).trans ?_
      have : List.ofFn (fun k => rotr1 (R k)) = (List.ofFn R).map rotr1 := by
        rw [List.map_ofFn]; rfl
      rw [this]
      exact ((hp.map rotr1).trans (rotations_rotr1 s)).trans hp.symm
  have : rotr1 (R (psi L k)) = R k := congrFun (List.ofFn_injective e) k
  rw [← this, rotl1_rotr1 _ (rotations_ne_nil s _ (hmem _)).1]

theorem psi_iterate_rotation (L : Fin n → UInt8) (R : Fin n → List UInt8) (s : List UInt8) (hn : s.length = n)
    (hp : (List.ofFn R).Perm (rotations s)) (hs : (List.ofFn R).Pairwise (· ≤ ·))
    (hL : ∀ k, L k = (R k).getLastD 0) (m : Nat) (hm : m ≤ n) (k : Fin n) :
    R ((psi L)^[m] k) = rotation (R k) m := by
  induction m with
  | zero => rw [rotation_zero]; rfl
  | succ m ih =>
    rw [Function.iterate_succ_apply', psi_rotation L R s hp hs hL, ih (by omega), rotl1_rotation]
    have : R k ∈ rotations s := hp.mem_iff.1 (List.mem_ofFn.2 ⟨k, rfl⟩)
    rw [(rotations_ne_nil s _ this).2]
    omega

/-- The transform of the code is the sorted-rotation transform only for safe blocks. -/
theorem safe_of_isBwt {L : Fin n → UInt8} {row : Equiv.Perm (Fin n)} {w y : List UInt8}
    (h : Rows n (w ++ y) L row) (hs : Smallest w y) (h0 : 0 < n)
    (hb : IsBwt (y ++ w) (List.ofFn L) (row ⟨w.length % n, Nat.mod_lt _ h0⟩).1) :
    SuffixesOrderRotations (w ++ y) := by
  have hl := h.length
  have hll : (y ++ w).length = n := by rw [← hl]; simp [Nat.add_comm]
  have hwl : w.length ≤ n := by rw [← hl]; simp
  by_cases hpow : ∃ m, y = pow w (m + 1)
  · obtain ⟨m, hy⟩ := hpow
    apply suffixesOrder_of_minimal
    intro p hp
    rw [hl] at hp
    have e0 := word_power h hs h0 hy n ⟨0, h0⟩
    have ep := word_power h hs h0 hy n ⟨p, hp⟩
    rw [ring_eq_rotation hl] at e0 ep
    rw [rotation_zero] at e0
    rcases le_total (row ⟨0, h0⟩) (row ⟨p, hp⟩) with hle | hle
    · have := word_mono L n _ _ hle
      rwa [e0, ep] at this
    · have := word_special h hs h0 hy n _ hle
      rw [ep, ring_eq_rotation hl, rotation_zero] at this
      have this : rotation (w ++ y) p = w ++ y := this
      rw [this]; exact List.le_refl _
  · have hpow : ∀ m, y ≠ pow w (m + 1) := fun m e => hpow ⟨m, e⟩
    obtain ⟨rows, hp, hsort, hlast, hptr⟩ := hb
    have hrot : rotation (y ++ w) y.length = w ++ y := by simp [rotation]
    have hp' : rows.Perm (rotations (w ++ y)) := by
      rw [← hrot]
      exact hp.trans (rotations_rotation _ _ (by simp)).symm
    have hrows := rows_eq hl rows hp' hsort
    subst hrows
    have hL : ∀ k, L k = (rotation (w ++ y) ((rotRow (w ++ y) n).symm k).1).getLastD 0 := by
      rw [List.map_ofFn] at hlast
      intro k
      exact congrFun (List.ofFn_injective hlast) k
    have hcol : ∀ x : Fin n, (w ++ y)[x.1]? = some (L (rotRow (w ++ y) n (nx x))) := by
      intro x
      rw [hL, Equiv.symm_apply_apply, rotation_getLast hl, List.getD_eq_getElem?_getD,
        List.getElem?_eq_getElem (by rw [hl]; exact x.2)]
      rfl
    have hwalk := walk h hs h0 hpow w.length (Nat.le_refl _)
    rw [List.getElem?_ofFn] at hptr
    simp only [Fin.is_lt, ↓reduceDIte, Fin.eta, Option.some.injEq] at hptr
    rw [← hwalk] at hptr
    rw [psi_iterate_rotation L (fun k => rotation (w ++ y) ((rotRow (w ++ y) n).symm k).1) (w ++ y) hl hp' hsort hL
      w.length hwl] at hptr
    refine safe_of_column h h0 hcol (rowZero_agree h h0 ?_)
    have hlk := rotation_length (w ++ y) ((rotRow (w ++ y) n).symm (rowZero row h0)).1 (by
      rw [hl]; exact Nat.le_of_lt (Fin.is_lt _))
    rw [rowZero] at hlk hptr
    generalize rotation (w ++ y) ((rotRow (w ++ y) n).symm (row ⟨0, h0⟩)).1 = q at hlk hptr ⊢
    have e : rotation (rotation q w.length) y.length = rotation (y ++ w) y.length := by rw [hptr]
    rw [hrot, rotation_rotation q _ _ (by omega) (by simp at hlk; omega)] at e
    rw [List.length_append] at hlk
    rw [if_pos (by omega), ← hlk, rotation_self] at e
    exact e

end Inj
end Ribzip2
