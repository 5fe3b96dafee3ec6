import Verif.Model.Bwt
import Verif.Spec.Bwt
import Verif.Proofs.Sort
import Verif.Proofs.Bits
import Mathlib.Data.List.Perm.Basic
namespace Ribzip2
open Spec

/-- Rotate by one to the left. -/
def rotl1 (l : List UInt8) : List UInt8 := l.drop 1 ++ l.take 1

/-- Rotate by one to the right. -/
def rotr1 (l : List UInt8) : List UInt8 := l.getLastD 0 :: l.dropLast

theorem rotr1_rotl1 (l : List UInt8) (h : l ≠ []) : rotr1 (rotl1 l) = l := by
  obtain ⟨a, l, rfl⟩ := List.exists_cons_of_ne_nil h
  simp [rotl1, rotr1, List.getLastD_eq_getLast?]

theorem rotl1_rotr1 (l : List UInt8) (h : l ≠ []) : rotl1 (rotr1 l) = l := by
  have := List.dropLast_concat_getLast h
  conv => rhs; rw [← this]
  simp [rotl1, rotr1, List.getLastD_eq_getLast?, List.getLast?_eq_getLast_of_ne_nil h]

theorem rotation_length (s : List UInt8) (k : Nat) (h : k ≤ s.length) : (rotation s k).length = s.length := by
  simp [rotation]; omega

theorem rotl1_rotation (s : List UInt8) (k : Nat) (h : k < s.length) :
    rotl1 (rotation s k) = rotation s (k + 1) := by
  unfold rotl1 rotation
  have h1 : s.drop k = s[k] :: s.drop (k + 1) := List.drop_eq_getElem_cons h
  have h2 : s.take (k + 1) = s.take k ++ [s[k]] := by simp
  rw [h2, h1, List.cons_append, List.drop_one, List.tail_cons, List.take_succ_cons, List.take_zero,
    List.append_assoc]

theorem rotation_zero (s : List UInt8) : rotation s 0 = s := by simp [rotation]
theorem rotation_self (s : List UInt8) : rotation s s.length = s := by simp [rotation]

theorem rotations_rotl1 (s : List UInt8) : ((rotations s).map rotl1).Perm (rotations s) := by
  cases hn : s.length with
  | zero => simp [rotations, hn]
  | succ n =>
    have h1 : (rotations s).map rotl1 = (List.range n).map (fun k => rotation s (k + 1)) ++ [s] := by
      unfold rotations
      rw [hn, List.range_succ, List.map_append, List.map_append, List.map_map]
      congr 1
      · apply List.map_congr_left
        intro k hk
        exact rotl1_rotation s k (by rw [hn]; have := List.mem_range.1 hk; omega)
      · simp only [List.map_cons, List.map_nil, rotl1_rotation s n (by omega)]
        rw [← hn, rotation_self]
    have h2 : rotations s = [s] ++ (List.range n).map (fun k => rotation s (k + 1)) := by
      unfold rotations
      rw [hn, List.range_succ_eq_map, List.map_cons, List.map_map, rotation_zero]
      rfl
    rw [h1, h2]
    exact List.perm_append_comm

theorem rotations_ne_nil (s : List UInt8) : ∀ r ∈ rotations s, r ≠ [] ∧ r.length = s.length := by
  intro r hr
  obtain ⟨k, hk, rfl⟩ := List.mem_map.1 hr
  have hk := List.mem_range.1 hk
  have := rotation_length s k (by omega)
  exact ⟨by intro e; rw [e] at this; simp at this; omega, this⟩

theorem rotations_rotr1 (s : List UInt8) : ((rotations s).map rotr1).Perm (rotations s) := by
  have h := ((rotations_rotl1 s).map rotr1).symm
  rw [List.map_map] at h
  have e : (rotations s).map (rotr1 ∘ rotl1) = rotations s := by
    conv => rhs; rw [← List.map_id (rotations s)]
    apply List.map_congr_left
    intro r hr
    exact rotr1_rotl1 r (rotations_ne_nil s r hr).1
  rwa [e] at h

theorem rotr1_le {x y : List UInt8}
    (h : x.getLastD 0 < y.getLastD 0 ∨ (x.getLastD 0 = y.getLastD 0 ∧ x.dropLast ≤ y.dropLast)) :
    rotr1 x ≤ rotr1 y := by
  unfold rotr1
  rw [List.cons_le_cons_iff]
  exact h

theorem dropLast_le {x y : List UInt8} (h : x ≤ y) (hl : x.length = y.length) : x.dropLast ≤ y.dropLast := by
  induction x generalizing y with
  | nil => simp
  | cons a x ih =>
    cases y with
    | nil => simp at hl
    | cons b y =>
      simp only [List.length_cons, Nat.add_right_cancel_iff] at hl
      rw [List.cons_le_cons_iff] at h
      cases x with
      | nil => simp
      | cons c x =>
        cases y with
        | nil => simp at hl
        | cons d y =>
          rw [List.dropLast_cons_of_ne_nil (List.cons_ne_nil c x),
            List.dropLast_cons_of_ne_nil (List.cons_ne_nil d y), List.cons_le_cons_iff]
          rcases h with h | ⟨h1, h2⟩
          · exact Or.inl h
          · exact Or.inr ⟨h1, ih h2 hl⟩

/-- The sorted pairs link each row to the row of its left rotation. -/
theorem sortedPairs_rows (s : List UInt8) (rows : List (List UInt8)) (hp : rows.Perm (rotations s))
    (hs : rows.Pairwise (· ≤ ·)) :
    (sortedPairs (rows.map fun r => r.getLastD 0)).map (fun p => rotr1 (rows.getD p.1 [])) = rows ∧
    ∀ p ∈ sortedPairs (rows.map fun r => r.getLastD 0), p.1 < rows.length ∧
      p.2 = (rows.getD p.1 []).getLastD 0 := by
  generalize hd : rows.map (fun r => r.getLastD 0) = data
  have hlen : data.length = rows.length := by rw [← hd]; simp
  have hbase : data.zipIdx.map (fun p => (p.2, p.1)) =
      (List.range rows.length).map fun i => (i, (rows.getD i []).getLastD 0) := by
    apply List.ext_getElem (by simp [hlen])
    intro i hi _
    have hi : i < rows.length := by simpa [hlen] using hi
    simp only [List.getElem_map, List.getElem_zipIdx, List.getElem_range, Nat.zero_add, Prod.mk.injEq,
      true_and, ← hd]
    simp [hi]
  have hperm : (sortedPairs data).Perm
      ((List.range rows.length).map fun i => (i, (rows.getD i []).getLastD 0)) := by
    rw [← hbase]; exact stableSort_perm _ _
  have hmem : ∀ p ∈ sortedPairs data, p.1 < rows.length ∧ p.2 = (rows.getD p.1 []).getLastD 0 := by
    intro p hp
    obtain ⟨i, hi, rfl⟩ := List.mem_map.1 (hperm.mem_iff.1 hp)
    exact ⟨List.mem_range.1 hi, rfl⟩
  refine ⟨?_, hmem⟩
  have hstable : (sortedPairs data).Pairwise fun x y => x.2 ≤ y.2 ∧ (y.2 ≤ x.2 → x.1 < y.1) := by
    have := stableSort_stable (fun x y : Nat × UInt8 => decide (x.2 ≤ y.2)) (fun x y => x.1 < y.1)
      (by intro a b; simp only [decide_eq_true_eq, UInt8.le_iff_toNat_le]; omega)
      (by intro a b c; simp only [decide_eq_true_eq, UInt8.le_iff_toNat_le]; omega)
      (data.zipIdx.map (fun p => (p.2, p.1)))
      (by
        rw [hbase, List.pairwise_map]
        exact List.pairwise_lt_range)
    exact this.imp (by simp)
  have hrowlen : ∀ i, i < rows.length → (rows.getD i []).length = s.length := by
    intro i hi
    have : rows.getD i [] ∈ rows := by simp [hi]
    exact (rotations_ne_nil s _ (hp.mem_iff.1 this)).2
  have hmono : ∀ i j, i < j → j < rows.length → rows.getD i [] ≤ rows.getD j [] := by
    intro i j hij hj
    have := List.pairwise_iff_getElem.1 hs i j (by omega) hj hij
    simpa [show i < rows.length by omega, hj] using this
  apply List.Perm.eq_of_pairwise (le := (· ≤ ·))
  · intro a b _ _ h1 h2; exact List.le_antisymm h1 h2
  · rw [List.pairwise_map]
    refine List.Pairwise.imp_of_mem ?_ hstable
    intro x y hx hy ⟨h1, h2⟩
    obtain ⟨hx1, hx2⟩ := hmem x hx
    obtain ⟨hy1, hy2⟩ := hmem y hy
    apply rotr1_le
    rw [← hx2, ← hy2]
    rcases Nat.lt_or_ge x.2.toNat y.2.toNat with h | h
    · exact Or.inl (UInt8.lt_iff_toNat_lt.2 h)
    · have hle := UInt8.le_iff_toNat_le.1 h1
      refine Or.inr ⟨UInt8.toNat_inj.1 (by omega), ?_⟩
      have := h2 (UInt8.le_iff_toNat_le.2 h)
      exact dropLast_le (hmono _ _ this hy1) (by rw [hrowlen _ hx1, hrowlen _ hy1])
  · exact hs
  · refine (hperm.map _).trans ?_
    rw [List.map_map]
    have : (List.range rows.length).map ((fun p : Nat × UInt8 => rotr1 (rows.getD p.1 [])) ∘
        fun i => (i, (rows.getD i []).getLastD 0)) = rows.map rotr1 := by
      apply List.ext_getElem (by simp)
      intro i hi _
      have hi : i < rows.length := by simpa using hi
      simp [hi]
    rw [this]
    exact ((hp.map rotr1).trans (rotations_rotr1 s)).trans hp.symm

theorem inverseBwtLoop_rows (s : List UInt8) (rows : List (List UInt8)) (hp : rows.Perm (rotations s))
    (hs : rows.Pairwise (· ≤ ·)) (pairs : List (Nat × UInt8))
    (hpairs : pairs = sortedPairs (rows.map fun r => r.getLastD 0)) (k : Nat)
    (start : Nat) (done todo : List UInt8) (hrow : rows[start]? = some (todo ++ done)) (hk : todo.length = k) :
    inverseBwtLoop pairs k start = Res.ok todo := by
  obtain ⟨h1, h2⟩ := sortedPairs_rows s rows hp hs
  rw [← hpairs] at h1 h2
  have hpl : pairs.length = rows.length := by
    have := congrArg List.length h1; simpa using this
  induction k generalizing start done todo with
  | zero => rw [List.eq_nil_of_length_eq_zero hk]; rfl
  | succ k ih =>
    cases todo with
    | nil => simp at hk
    | cons c todo =>
      have hst : start < rows.length := by
        by_contra hge
        rw [List.getElem?_eq_none (by omega)] at hrow
        simp at hrow
      have hst' : start < pairs.length := by omega
      have e := congrArg (fun l => l[start]?) h1
      simp only [List.getElem?_map, List.getElem?_eq_getElem hst', Option.map_some, hrow,
        Option.some.injEq] at e
      obtain ⟨g1, g2⟩ := h2 pairs[start] (List.getElem_mem _)
      have hne : rows.getD pairs[start].1 [] ≠ [] := by
        have : rows.getD pairs[start].1 [] ∈ rows := by simp [g1]
        exact (rotations_ne_nil s _ (hp.mem_iff.1 this)).1
      have e3 : rows.getD pairs[start].1 [] = todo ++ (done ++ [c]) := by
        rw [← rotl1_rotr1 _ hne, e]
        simp [rotl1]
      unfold rotr1 at e
      rw [List.cons_append, List.cons.injEq] at e
      unfold inverseBwtLoop
      rw [idx, List.getElem?_eq_getElem hst']
      have := ih pairs[start].1 (done ++ [c]) todo (by
        rw [← e3]
        simp [g1]) (by simpa using hk)
      simp only [Res.ofOption, Res.ok_bind, this, Res.pure_eq]
      rw [g2, e.1]

/-- `inverse_bwt` inverts the transform. -/
theorem inverseBwt_spec (s last : List UInt8) (ptr : Nat) (h : IsBwt s last ptr) :
    inverseBwt last ptr = Res.ok s := by
  obtain ⟨rows, hp, hs, rfl, hr⟩ := h
  have hrl : rows.length = s.length := by rw [hp.length_eq]; simp [rotations]
  have hst : ptr < rows.length := by
    by_contra hge
    rw [List.getElem?_eq_none (by omega)] at hr
    simp at hr
  obtain ⟨h1, h2⟩ := sortedPairs_rows s rows hp hs
  unfold inverseBwt
  generalize hpairs : sortedPairs (rows.map fun r => r.getLastD 0) = pairs at h1 h2
  have hmem : ∃ b, (ptr, b) ∈ pairs := by
    refine ⟨(rows.getD ptr []).getLastD 0, ?_⟩
    rw [← hpairs]
    unfold sortedPairs
    rw [mem_stableSort, List.mem_map]
    refine ⟨((rows.getD ptr []).getLastD 0, ptr), ?_, rfl⟩
    rw [List.mem_zipIdx_iff_getElem?]
    simp [hst]
  obtain ⟨b, hb⟩ := hmem
  have hfind : ∃ q, pairs.find? (fun p => p.1 == ptr) = some q ∧ q.1 = ptr := by
    cases hf : pairs.find? (fun p => p.1 == ptr) with
    | none =>
      have := List.find?_eq_none.1 hf _ hb
      simp at this
    | some q => exact ⟨q, rfl, by simpa using List.find?_some hf⟩
  obtain ⟨q, hq1, hq2⟩ := hfind
  simp only [hq1, Res.ofOption, Res.ok_bind, hq2]
  exact inverseBwtLoop_rows s rows hp hs pairs hpairs.symm _ ptr [] s (by simpa using hr) (by simp [hrl])

end Ribzip2
