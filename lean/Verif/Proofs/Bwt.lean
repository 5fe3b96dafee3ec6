import Verif.Proofs.Duval
import Verif.Proofs.InverseBwt
import Mathlib.Data.List.Perm.Subperm
namespace Ribzip2
open Spec

theorem append_le_append_left (a : List UInt8) {x y : List UInt8} (h : x ≤ y) : a ++ x ≤ a ++ y := by
  induction a with
  | nil => exact h
  | cons c a ih =>
    rw [List.cons_append, List.cons_append, List.cons_le_cons_iff]
    exact Or.inr ⟨rfl, ih⟩

theorem take_le_take {x y : List UInt8} (k : Nat) (h : x ≤ y) : x.take k ≤ y.take k := by
  induction k generalizing x y with
  | zero => simp
  | succ k ih =>
    cases x with
    | nil => simp
    | cons a x =>
      cases y with
      | nil =>
        exact absurd h (by
          intro hh
          exact hh (List.nil_lt_cons a x))
      | cons b y =>
        rw [List.cons_le_cons_iff] at h
        rw [List.take_succ_cons, List.take_succ_cons, List.cons_le_cons_iff]
        rcases h with h | ⟨h1, h2⟩
        · exact Or.inl h
        · exact Or.inr ⟨h1, ih h2⟩

/-- A strict order that is not a prefix relation survives extension. -/
theorem append_lt_append_of_lt {x y : List UInt8} (h : x < y) (hnp : ¬ x <+: y) (a b : List UInt8) :
    x ++ a < y ++ b := by
  induction x generalizing y with
  | nil => exact absurd (List.nil_prefix) hnp
  | cons c x ih =>
    cases y with
    | nil => simp at h
    | cons d y =>
      rw [List.cons_lt_cons_iff] at h
      rw [List.cons_append, List.cons_append, List.cons_lt_cons_iff]
      rcases h with h | ⟨h1, h2⟩
      · exact Or.inl h
      · refine Or.inr ⟨h1, ih h2 ?_⟩
        intro hp
        subst h1
        exact hnp ((List.prefix_cons_inj _).2 hp)

/-- If `r` is a minimal rotation (of itself), its suffixes order its rotations. -/
theorem suffixesOrder_of_minimal (r : List UInt8) (h : ∀ p < r.length, r ≤ rotation r p) :
    SuffixesOrderRotations r := by
  intro i hi j hj hlt
  by_cases hp : r.drop i <+: r.drop j
  · obtain ⟨z, hz⟩ := hp
    have hlen := congrArg List.length hz
    simp only [List.length_append, List.length_drop] at hlen
    have hij : j < i := by
      rcases Nat.lt_trichotomy i j with h1 | h1 | h1
      · omega
      · subst h1; exact absurd hlt (List.lt_irrefl _)
      · exact h1
    have hzl : z.length = i - j := by omega
    have hzd : z = r.drop (r.length - (i - j)) := by
      have : (r.drop j).drop (r.drop i).length = z := by rw [← hz]; simp
      rw [← this, List.drop_drop]
      congr 1
      simp; omega
    have e1 : rotation r i = r.drop i ++ r.take i := rfl
    have e2 : rotation r j = r.drop i ++ (z ++ r.take j) := by
      rw [← List.append_assoc, hz]; rfl
    rw [e1, e2]
    apply append_le_append_left
    have hm := take_le_take i (h (r.length - (i - j)) (by omega))
    have e3 : (rotation r (r.length - (i - j))).take i = z ++ r.take j := by
      unfold rotation
      rw [← hzd, List.take_append, List.take_of_length_le (by omega), hzl, List.take_take]
      congr 2
      omega
    rwa [e3] at hm
  · exact List.le_of_lt (append_lt_append_of_lt hlt hp _ _)

/-- The smallest suffix starts a minimal rotation when it occurs nowhere else. -/
theorem minimal_of_unique_suffix (s : List UInt8) (f : Nat) (h : SmallestSuffixAt s f)
    (hu : ∀ p < s.length, p ≠ f → ¬ s.drop f <+: s.drop p) : MinimalRotationAt s f := by
  refine ⟨h.1, fun p hp => ?_⟩
  by_cases hpf : p = f
  · subst hpf; exact List.le_refl _
  · have hle := h.2 p hp
    have hne : s.drop f ≠ s.drop p := by
      intro e
      have := congrArg List.length e
      simp at this; have := h.1; omega
    have hlt : s.drop f < s.drop p := by
      rcases List.le_iff_lt_or_eq.1 hle with h | h
      · exact h
      · exact absurd h hne
    exact List.le_of_lt (append_lt_append_of_lt hlt (hu p hp hpf) _ _)

theorem rotation_rotation (s : List UInt8) (f p : Nat) (hf : f ≤ s.length) (hp : p ≤ s.length) :
    rotation (rotation s f) p = rotation s (if f + p ≤ s.length then f + p else f + p - s.length) := by
  unfold rotation
  split
  · rename_i h
    rw [List.drop_append_of_le_length (by simp; omega), List.drop_drop,
      List.take_append_of_le_length (by simp; omega), List.append_assoc]
    congr 1
    rw [List.take_add]
  · rename_i h
    rw [List.drop_append, List.take_append, List.length_drop,
      List.drop_of_length_le (by simp; omega), List.nil_append,
      List.take_of_length_le (l := s.drop f) (by simp; omega)]
    have e : p - (s.length - f) = f + p - s.length := by omega
    rw [e, ← List.append_assoc, List.take_take, Nat.min_eq_left (by omega)]
    congr 1
    have h1 : s.drop (f + p - s.length) = (s.take f).drop (f + p - s.length) ++ s.drop f := by
      generalize f + p - s.length = q at *
      conv => lhs; rw [← List.take_append_drop f s]
      rw [List.drop_append_of_le_length (by simp; omega)]
    rw [h1]

theorem rotations_rotation (s : List UInt8) (f : Nat) (hf : f ≤ s.length) :
    (rotations (rotation s f)).Perm (rotations s) := by
  induction f with
  | zero => rw [rotation_zero]
  | succ f ih =>
    refine List.Perm.trans ?_ (ih (by omega))
    rw [← rotl1_rotation s f (by omega)]
    -- rotations of a rotation by one
    generalize rotation s f = t
    by_cases ht : t = []
    · subst ht; simp [rotl1]
    · have hl : (rotl1 t).length = t.length := by
        have : 0 < t.length := List.length_pos_iff.2 ht
        simp [rotl1]; omega
      have : rotations (rotl1 t) = (rotations t).map rotl1 := by
        unfold rotations
        rw [hl, List.map_map]
        apply List.map_congr_left
        intro k hk
        have hk := List.mem_range.1 hk
        have e1 : rotl1 t = rotation t 1 := rfl
        have e2 : ∀ l, rotl1 l = rotation l 1 := fun _ => rfl
        simp only [Function.comp]
        rw [e2 (rotation t k), rotl1, ← rotation, rotation_rotation t 1 k (by omega) (by omega),
          rotation_rotation t k 1 (by omega) (by omega), Nat.add_comm]
      rw [this]
      exact rotations_rotl1 t

theorem bwtColumn_eq (r : List UInt8) (l : List Nat) (h : ∀ x ∈ l, x < r.length) :
    bwtColumn r r.length l = Res.ok (l.map fun x => (rotation r x).getLastD 0) := by
  induction l with
  | nil => rfl
  | cons x l ih =>
    have hx := h x (by simp)
    unfold bwtColumn
    have hlast : idx r (if x > 0 then x - 1 else r.length - 1) = Res.ok ((rotation r x).getLastD 0) := by
      unfold rotation
      by_cases h0 : x > 0
      · rw [if_pos h0, List.getLastD_eq_getLast?, List.getLast?_append, List.getLast?_take,
          if_neg (by omega)]
        rw [idx, List.getElem?_eq_getElem (by omega)]
        simp [Res.ofOption]
      · rw [if_neg h0]
        have : x = 0 := by omega
        subst this
        rw [idx, List.getElem?_eq_getElem (by omega), List.drop_zero, List.take_zero, List.append_nil,
          List.getLastD_eq_getLast?, List.getLast?_eq_getElem?, List.getElem?_eq_getElem (by omega)]
        simp [Res.ofOption]
    simp only [hlast, Res.ok_bind, ih (fun y hy => h y (by simp [hy])), Res.pure_eq, List.map_cons]

/-- `bwt` gives the transform whenever the suffix array is right and its order is that of the
rotations. -/
theorem bwt_spec (s : List UInt8) (hne : s ≠ []) (f : Nat) (hf : duval s = Res.ok f) (hfl : f < s.length)
    (sa : List Nat) (hsa : buildSuffixArray (rotation s f) = Res.ok sa)
    (hsa2 : IsSuffixArray (rotation s f) sa) :
    ∃ last ptr, bwt s = Res.ok (last, ptr) ∧ last.length = s.length ∧ ptr < s.length ∧ last.Perm s ∧
      (SuffixesOrderRotations (rotation s f) → IsBwt s last ptr) := by
  have hrl : (rotation s f).length = s.length := rotation_length s f (by omega)
  have hpos : 0 < s.length := List.length_pos_iff.2 hne
  generalize hr : rotation s f = r at *
  obtain ⟨hperm, hsorted⟩ := hsa2
  have hrot : rotateDuval s = Res.ok (r, f) := by
    unfold rotateDuval
    rw [hf, Res.ok_bind, if_pos (by omega), ← hr]
    rfl
  have hkperm : (sa.filter fun x => decide (x < s.length)).Perm (List.range s.length) := by
    have := hperm.filter (fun x => decide (x < s.length))
    refine this.trans ?_
    rw [hrl, List.range_succ, List.filter_append]
    simp only [List.filter_cons, Nat.lt_irrefl, decide_false, List.filter_nil]
    rw [if_neg (by simp), List.append_nil, List.filter_eq_self.2]
    intro x hx; simpa using hx
  have hklt : ∀ x ∈ sa.filter (fun x => decide (x < s.length)), x < r.length := by
    intro x hx
    have := hkperm.mem_iff.1 hx
    rw [hrl]; simpa using this
  have hfind : ∃ ptr, (sa.filter fun x => decide (x < s.length)).findIdx?
      (fun x => x == (s.length - f) % s.length) = some ptr := by
    rw [← Option.isSome_iff_exists, List.findIdx?_isSome, List.any_eq_true]
    exact ⟨(s.length - f) % s.length, hkperm.mem_iff.2 (by simp [Nat.mod_lt _ hpos]), by simp⟩
  obtain ⟨ptr, hptr⟩ := hfind
  generalize hk : sa.filter (fun x => decide (x < s.length)) = kept at *
  have hcol := bwtColumn_eq r kept hklt
  rw [hrl] at hcol
  have hkl : kept.length = s.length := by rw [hkperm.length_eq]; simp
  obtain ⟨hptrlt, hptr1, -⟩ := List.findIdx?_eq_some_iff_getElem.1 hptr
  have hrowsperm : (kept.map (rotation r)).Perm (rotations s) := by
    refine (hkperm.map _).trans ?_
    rw [← hrl]
    have := rotations_rotation s f (by omega)
    rw [hr] at this
    exact this
  have hcolperm : (kept.map fun x => (rotation r x).getLastD 0).Perm s := by
    have h1 : (kept.map fun x => (rotation r x).getLastD 0) =
        (kept.map (rotation r)).map (fun l => l.getLastD 0) := by rw [List.map_map]; rfl
    rw [h1]
    refine (hrowsperm.map _).trans ?_
    -- last bytes of the rotations of s
    have h2 := (rotations_rotr1 s).map (fun l => l.headD 0)
    rw [List.map_map] at h2
    have h3 : (rotations s).map ((fun l => l.headD 0) ∘ rotr1) = (rotations s).map fun l => l.getLastD 0 := by
      apply List.map_congr_left
      intro l _
      simp [rotr1]
    rw [h3] at h2
    refine h2.trans ?_
    have h4 : (rotations s).map (fun l => l.headD 0) = s := by
      unfold rotations
      rw [List.map_map]
      apply List.ext_getElem (by simp)
      intro i hi hi'
      simp only [List.getElem_map, List.getElem_range, Function.comp, rotation]
      rw [List.drop_eq_getElem_cons hi']
      rfl
    rw [h4]
  refine ⟨kept.map (fun x => (rotation r x).getLastD 0), ptr, ?_, by simpa using hkl, by omega, hcolperm, ?_⟩
  · unfold bwt
    rw [hrot]
    simp only [Res.ok_bind, hsa]
    rw [hk, hcol]
    simp only [Res.ok_bind]
    rw [subU, if_pos (by omega), Res.ok_bind, if_neg (by omega), hptr]
    rfl
  · intro hord
    refine ⟨kept.map (rotation r), hrowsperm, ?_, ?_, ?_⟩
    · rw [List.pairwise_map]
      have : kept.Pairwise fun i j => r.drop i < r.drop j := by
        rw [← hk]; exact hsorted.filter _
      refine List.Pairwise.imp_of_mem ?_ this
      intro a b ha hb hlt
      exact hord a (hklt a ha) b (hklt b hb) hlt
    · rw [List.map_map]; rfl
    · rw [List.getElem?_map, List.getElem?_eq_getElem hptrlt, Option.map_some]
      have e : kept[ptr] = (s.length - f) % s.length := by simpa using hptr1
      rw [e, ← hr]
      by_cases h0 : f = 0
      · subst h0
        simp [rotation]
      · rw [Nat.mod_eq_of_lt (by omega), rotation_rotation s f _ (by omega) (by omega),
          if_pos (by omega), show f + (s.length - f) = s.length by omega, rotation_self]

end Ribzip2
