import Verif.Proofs.Bwt
/- When the suffixes of a string order its rotations: an exact criterion. -/
namespace Ribzip2
open Spec

/-- The byte in front of position `i` is the last byte of `r`. -/
def PrecededByLast (r : List UInt8) (i : Nat) : Prop := r[i - 1]? = r[r.length - 1]?

theorem suffixesOrder_of_criterion (r : List UInt8)
    (h : ∀ i, 1 ≤ i → i < r.length → PrecededByLast r i → r ≤ rotation r i) :
    SuffixesOrderRotations r := by
  intro a ha b hb hlt
  by_cases hp : r.drop a <+: r.drop b
  · obtain ⟨z, hz⟩ := hp
    have hlen := congrArg List.length hz
    simp only [List.length_append, List.length_drop] at hlen
    have hij : b < a := by
      rcases Nat.lt_trichotomy a b with h1 | h1 | h1
      · omega
      · subst h1; exact absurd hlt (List.lt_irrefl _)
      · exact h1
    have hzl : z.length = a - b := by omega
    have hzd : z = r.drop (r.length - (a - b)) := by
      have : (r.drop b).drop (r.drop a).length = z := by rw [← hz]; simp
      rw [← this, List.drop_drop]
      congr 1
      simp; omega
    have e1 : rotation r a = r.drop a ++ r.take a := rfl
    have e2 : rotation r b = r.drop a ++ (z ++ r.take b) := by
      rw [← List.append_assoc, hz]; rfl
    rw [e1, e2]
    apply append_le_append_left
    have hlast : PrecededByLast r (r.length - (a - b)) := by
      have h1 : (r.drop b)[r.length - a - 1]? = (r.drop a)[r.length - a - 1]? := by
        rw [← hz, List.getElem?_append_left (by simp; omega)]
      rw [List.getElem?_drop, List.getElem?_drop] at h1
      rw [PrecededByLast, show r.length - (a - b) - 1 = b + (r.length - a - 1) by omega, h1]
      congr 1
      omega
    have hm := take_le_take a (h (r.length - (a - b)) (by omega) (by omega) hlast)
    have e3 : (rotation r (r.length - (a - b))).take a = z ++ r.take b := by
      unfold rotation
      rw [← hzd, List.take_append, List.take_of_length_le (by omega), hzl, List.take_take]
      congr 2
      omega
    rwa [e3] at hm
  · exact List.le_of_lt (append_lt_append_of_lt hlt hp _ _)

theorem rotation_perm (r : List UInt8) (i : Nat) : (rotation r i).Perm r := by
  unfold rotation
  exact List.perm_append_comm.trans (by rw [List.take_append_drop])

/-- Strings with the same bytes that agree but for the last one are equal. -/
theorem eq_of_perm_of_dropLast {x y : List UInt8} (hp : x.Perm y) (h : x.dropLast = y.dropLast) : x = y := by
  by_cases hx : x = []
  · subst hx; exact (List.nil_perm.1 hp).symm
  · have hy : y ≠ [] := by rintro rfl; exact hx (List.perm_nil.1 hp)
    rw [← List.dropLast_concat_getLast hx, ← List.dropLast_concat_getLast hy] at hp ⊢
    rw [h] at hp ⊢
    have := (List.perm_append_left_iff _).1 hp
    simp at this
    rw [this]

theorem criterion_of_suffixesOrder (r : List UInt8) (h : SuffixesOrderRotations r) (i : Nat) (hi : 1 ≤ i)
    (hlt : i < r.length) (hl : PrecededByLast r i) : r ≤ rotation r i := by
  have hi1 : r.length - 1 < r.length := by omega
  have hi2 : i - 1 < r.length := by omega
  have hc : r[i - 1] = r[r.length - 1] := by
    rw [PrecededByLast, List.getElem?_eq_getElem hi2, List.getElem?_eq_getElem hi1] at hl
    simpa using hl
  have ea : r.drop (r.length - 1) = [r[r.length - 1]] := by
    rw [List.drop_eq_getElem_cons hi1, List.drop_of_length_le (by omega)]
  have eb : r.drop (i - 1) = r[r.length - 1] :: r.drop i := by
    rw [List.drop_eq_getElem_cons hi2, hc, show i - 1 + 1 = i by omega]
  have hlt' : r.drop (r.length - 1) < r.drop (i - 1) := by
    rw [ea, eb, List.cons_lt_cons_iff]
    refine Or.inr ⟨rfl, ?_⟩
    rw [List.drop_eq_getElem_cons hlt]
    exact List.Lex.nil
  have := h (r.length - 1) hi1 (i - 1) hi2 hlt'
  have e1 : rotation r (r.length - 1) = r[r.length - 1] :: r.dropLast := by
    rw [rotation, ea, List.dropLast_eq_take]; rfl
  have e2 : rotation r (i - 1) = r[r.length - 1] :: (rotation r i).dropLast := by
    rw [rotation, eb, rotation, List.cons_append]
    congr 1
    have : r.take i = r.take (i - 1) ++ [r[i - 1]] := by
      conv => lhs; rw [show i = i - 1 + 1 by omega]
      rw [List.take_add_one, List.getElem?_eq_getElem hi2]
      rfl
    rw [this, ← List.append_assoc, List.dropLast_concat]
  rw [e1, e2, List.cons_le_cons_iff] at this
  have hle : r.dropLast ≤ (rotation r i).dropLast := by
    rcases this with h | h
    · exact absurd h (by simp)
    · exact h.2
  rw [← List.not_lt]
  intro hgt
  have h3 := dropLast_le (List.le_of_lt hgt) (rotation_length r i (by omega))
  have h4 := List.le_antisymm h3 hle
  have h5 := eq_of_perm_of_dropLast (rotation_perm r i) h4
  rw [h5] at hgt
  exact absurd hgt (List.lt_irrefl _)

theorem suffixesOrder_iff (r : List UInt8) : SuffixesOrderRotations r ↔
    ∀ i, 1 ≤ i → i < r.length → PrecededByLast r i → r ≤ rotation r i :=
  ⟨fun h i h1 h2 h3 => criterion_of_suffixesOrder r h i h1 h2 h3, suffixesOrder_of_criterion r⟩

end Ribzip2
