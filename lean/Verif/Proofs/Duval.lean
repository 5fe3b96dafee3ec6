import Verif.Model.Bwt
import Verif.Spec.Bwt
import Verif.Proofs.Bits
import Mathlib.Data.List.Perm.Basic
namespace Ribzip2
open Spec

/-- Byte at a position. -/
def byteAt (s : List UInt8) (p : Nat) : Nat := (s.getD p 0).toNat

theorem drop_lt_of_mismatch (s : List UInt8) (p q u : Nat) (heq : ∀ v < u, byteAt s (p + v) = byteAt s (q + v))
    (hp : p + u ≤ s.length) (hq : q + u < s.length)
    (h : p + u = s.length ∨ byteAt s (p + u) < byteAt s (q + u)) : s.drop p < s.drop q := by
  have hget : ∀ v (h1 : p + v < s.length) (h2 : q + v < s.length), v < u → s[p + v] = s[q + v] := by
    intro v h1 h2 hv
    have := heq v hv
    simp only [byteAt, List.getD_eq_getElem?_getD, List.getElem?_eq_getElem h1,
      List.getElem?_eq_getElem h2, Option.getD_some] at this
    exact UInt8.toNat_inj.1 this
  rw [List.lt_iff_exists]
  rcases h with h | h
  · left
    constructor
    · apply List.ext_getElem
      · simp; omega
      · intro v h1 h2
        simp only [List.length_drop] at h1
        simp only [List.getElem_drop, List.getElem_take]
        exact hget v (by omega) (by omega) (by omega)
    · simp; omega
  · by_cases hpl : p + u = s.length
    · simp only [byteAt, List.getD_eq_getElem?_getD, List.getElem?_eq_none (show s.length ≤ p + u by omega)] at h
      left
      constructor
      · apply List.ext_getElem
        · simp; omega
        · intro v h1 h2
          simp only [List.length_drop] at h1
          simp only [List.getElem_drop, List.getElem_take]
          exact hget v (by omega) (by omega) (by omega)
      · simp; omega
    · right
      refine ⟨u, by simp; omega, by simp; omega, ?_, ?_⟩
      · intro v hv
        simp only [List.getElem_drop]
        exact hget v (by omega) (by omega) hv
      · simp only [List.getElem_drop]
        simp only [byteAt, List.getD_eq_getElem?_getD, List.getElem?_eq_getElem hq,
          List.getElem?_eq_getElem (show p + u < s.length by omega), Option.getD_some] at h
        exact UInt8.lt_iff_toNat_lt.2 h

/-- State of the inner loop: `s[i..j)` has period `j - k`, and its first `j - k` bytes are a Lyndon
word. -/
structure Window (s : List UInt8) (i j k : Nat) : Prop where
  ik : i ≤ k
  kj : k < j
  jn : j ≤ s.length
  period : ∀ t, i + (j - k) ≤ t → t < j → byteAt s t = byteAt s (t - (j - k))
  lyndon : ∀ t, 0 < t → t < j - k → ∃ u, t + u < j - k ∧
    (∀ v < u, byteAt s (i + t + v) = byteAt s (i + v)) ∧ byteAt s (i + u) < byteAt s (i + t + u)

theorem Window.init (s : List UInt8) (i : Nat) (h : i < s.length) : Window s i (i + 1) i where
  ik := Nat.le_refl _
  kj := by omega
  jn := by omega
  period := by intro t h1 h2; omega
  lyndon := by intro t h1 h2; omega

theorem Window.step_eq {s : List UInt8} {i j k : Nat} (w : Window s i j k) (hj : j < s.length)
    (h : byteAt s k = byteAt s j) : Window s i (j + 1) (k + 1) where
  ik := by have := w.ik; omega
  kj := by have := w.kj; omega
  jn := by omega
  period := by
    intro t h1 h2
    have hkj := w.kj
    rw [show j + 1 - (k + 1) = j - k by omega] at h1 ⊢
    by_cases ht : t < j
    · exact w.period t h1 ht
    · have : t = j := by omega
      subst this
      rw [← h, show t - (t - k) = k by omega]
  lyndon := by
    rw [show j + 1 - (k + 1) = j - k by omega]
    exact w.lyndon

theorem Window.step_lt {s : List UInt8} {i j k : Nat} (w : Window s i j k) (hj : j < s.length)
    (h : byteAt s k < byteAt s j) : Window s i (j + 1) i where
  ik := Nat.le_refl _
  kj := by have := w.ik; have := w.kj; omega
  jn := by omega
  period := by intro t h1 h2; omega
  lyndon := by
    have hik := w.ik
    have hkj := w.kj
    have key : ∀ t, 0 < t → i + t ≤ j → ∃ u, i + t + u ≤ j ∧
        (∀ v < u, byteAt s (i + t + v) = byteAt s (i + v)) ∧ byteAt s (i + u) < byteAt s (i + t + u) := by
      intro t
      induction t using Nat.strongRecOn with
      | _ t ih =>
        intro ht htj
        rcases Nat.lt_trichotomy t (j - k) with hlt | heq | hgt
        · obtain ⟨u, h1, h2, h3⟩ := w.lyndon t ht hlt
          exact ⟨u, by omega, h2, h3⟩
        · refine ⟨j - i - t, by omega, ?_, ?_⟩
          · intro v hv
            rw [w.period (i + t + v) (by omega) (by omega)]
            congr 1; omega
          · rw [show i + t + (j - i - t) = j by omega, show i + (j - i - t) = k by omega]
            exact h
        · obtain ⟨u, h1, h2, h3⟩ := ih (t - (j - k)) (by omega) (by omega) (by omega)
          by_cases hu : i + t + u < j
          · refine ⟨u, by omega, ?_, ?_⟩
            · intro v hv
              rw [w.period (i + t + v) (by omega) (by omega), ← h2 v hv]
              congr 1; omega
            · rw [w.period (i + t + u) (by omega) (by omega),
                show i + t + u - (j - k) = i + (t - (j - k)) + u by omega]
              exact h3
          · refine ⟨j - i - t, by omega, ?_, ?_⟩
            · intro v hv
              rw [w.period (i + t + v) (by omega) (by omega), ← h2 v (by omega)]
              congr 1; omega
            · rw [show i + t + (j - i - t) = j by omega]
              refine Nat.lt_of_le_of_lt ?_ h
              rw [show k = i + (t - (j - k)) + (j - i - t) by omega]
              by_cases hv : j - i - t < u
              · exact Nat.le_of_eq (h2 _ hv).symm
              · rw [show j - i - t = u by omega]; exact Nat.le_of_lt h3
    intro t ht1 ht2
    obtain ⟨u, h1, h2, h3⟩ := key t ht1 (by omega)
    exact ⟨u, by omega, h2, h3⟩

theorem idx_byteAt (s : List UInt8) (p : Nat) (h : p < s.length) :
    idx s p = Res.ok (UInt8.ofNat (byteAt s p)) := by
  simp [idx, h, byteAt, Res.ofOption]

theorem byteAt_lt (s : List UInt8) (p : Nat) : byteAt s p < 256 := UInt8.toNat_lt _

theorem duvalInner_spec (s : List UInt8) (i fuel j k : Nat) (w : Window s i j k)
    (hf : s.length < fuel + j) :
    ∃ j' k', duvalInner s i fuel j k = Res.ok (j', k') ∧ Window s i j' k' ∧
      (j' = s.length ∨ (j' < s.length ∧ byteAt s j' < byteAt s k')) := by
  induction fuel generalizing j k with
  | zero => have := w.jn; omega
  | succ fuel ih =>
    unfold duvalInner
    by_cases hj : j < s.length
    · have hk : k < s.length := by have := w.kj; omega
      rw [if_pos hj, idx_byteAt s k hk, idx_byteAt s j hj]
      simp only [Res.ok_bind, UInt8.le_iff_toNat_le, UInt8.lt_iff_toNat_lt]
      rw [UInt8.toNat_ofNat_of_lt' (byteAt_lt s k), UInt8.toNat_ofNat_of_lt' (byteAt_lt s j)]
      by_cases h1 : byteAt s k ≤ byteAt s j
      · rw [if_pos h1]
        by_cases h2 : byteAt s k < byteAt s j
        · rw [if_pos h2]
          exact ih _ _ (w.step_lt hj h2) (by omega)
        · rw [if_neg h2]
          exact ih _ _ (w.step_eq hj (by omega)) (by omega)
      · rw [if_neg h1]
        exact ⟨j, k, rfl, w, Or.inr ⟨hj, by omega⟩⟩
    · rw [if_neg hj]
      exact ⟨j, k, rfl, w, Or.inl (by have := w.jn; omega)⟩

/-- Everything before `i` except `f` is beaten by another suffix. -/
def Beaten (s : List UInt8) (p : Nat) : Prop := ∃ q, q < s.length ∧ s.drop q < s.drop p

theorem duvalAdvance_spec (s : List UInt8) (i0 j k : Nat) (w : Window s i0 j k)
    (hend : j = s.length ∨ (j < s.length ∧ byteAt s j < byteAt s k))
    (fuel i f : Nat) (hi0 : i0 ≤ i) (hij : i ≤ j) (hil : i + (j - k) ≤ j → i ≤ k)
    (hper : ∀ v, v < j - k → i + v < j → byteAt s (i + v) = byteAt s (i0 + v))
    (hf : k + 1 < fuel + i) (hf0 : 0 < fuel) (hfi : i0 < i → f < i)
    (hb : ∀ p < i, p ≠ f → Beaten s p) (hb2 : i < s.length → ∀ p < i, Beaten s p) :
    ∃ i' f', duvalAdvance j k fuel i f = Res.ok (i', f') ∧ k < i' ∧ i' ≤ j ∧ (i ≤ k → f' < i') ∧
      (k < i → f' = f ∧ i' = i) ∧
      (∀ p < i', p ≠ f' → Beaten s p) ∧ (i' < s.length → ∀ p < i', Beaten s p) := by
  have hkj := w.kj
  have hjn := w.jn
  induction fuel generalizing i f with
  | zero => omega
  | succ fuel ih =>
    unfold duvalAdvance
    by_cases hik : i ≤ k
    · rw [if_pos hik, subU, if_pos (by omega)]
      simp only [Res.ok_bind]
      have hin : i < s.length := by omega
      have hbi := hb2 hin
      -- shifting by the period gives a smaller suffix
      have hshift : i + (j - k) < s.length → s.drop (i + (j - k)) < s.drop i := by
        intro hlt
        refine drop_lt_of_mismatch s _ _ (k - i) ?_ (by omega) (by omega) ?_
        · intro v hv
          rw [w.period (i + (j - k) + v) (by omega) (by omega)]
          congr 1; omega
        · rw [show i + (j - k) + (k - i) = j by omega, show i + (k - i) = k by omega]
          rcases hend with h | h
          · exact Or.inl h
          · exact Or.inr h.2
      have hinside : ∀ t, 0 < t → t < j - k → Beaten s (i + t) := by
        intro t h1 h2
        obtain ⟨u, g1, g2, g3⟩ := w.lyndon t h1 h2
        refine ⟨i, hin, drop_lt_of_mismatch s _ _ u ?_ (by omega) (by omega) (Or.inr ?_)⟩
        · intro v hv
          rw [hper v (by omega) (by omega), Nat.add_assoc, hper (t + v) (by omega) (by omega), ← g2 v hv]
          congr 1; omega
        · rw [hper u (by omega) (by omega), Nat.add_assoc, hper (t + u) (by omega) (by omega)]
          rwa [Nat.add_assoc] at g3
      have hbnew : ∀ p < i + (j - k), p ≠ i → Beaten s p := by
        intro p hp hpi
        rcases Nat.lt_or_ge p i with h | h
        · exact hbi p h
        · have := hinside (p - i) (by omega) (by omega)
          rwa [show i + (p - i) = p by omega] at this
      obtain ⟨i', f', r1, r2, r3, r4, r5, r6, r7⟩ := ih (i + (j - k)) i (by omega) (by omega) (by omega)
        (by
          intro v hv hvj
          rw [w.period (i + (j - k) + v) (by omega) (by omega), ← hper v hv (by omega)]
          congr 1; omega)
        (by omega) (by omega) (by omega) hbnew
        (by
          intro hlt p hp
          by_cases hpi : p = i
          · subst hpi; exact ⟨_, hlt, hshift hlt⟩
          · exact hbnew p hp hpi)
      refine ⟨i', f', r1, r2, r3, ?_, by omega, r6, r7⟩
      intro _
      by_cases hh : i + (j - k) ≤ k
      · exact r4 hh
      · obtain ⟨e1, e2⟩ := r5 (by omega); omega
    · rw [if_neg hik]
      exact ⟨i, f, rfl, by omega, hij, by omega, fun _ => ⟨rfl, rfl⟩, hb, hb2⟩

theorem duvalOuter_spec (s : List UInt8) (fuel i f : Nat) (hfuel : s.length < fuel + i)
    (hi : i ≤ s.length) (hf : 0 < i → f < i)
    (hb : ∀ p < i, p ≠ f → Beaten s p) (hb2 : i < s.length → ∀ p < i, Beaten s p) :
    ∃ f', duvalOuter s fuel i f = Res.ok f' ∧ (s ≠ [] → f' < s.length) ∧ (s = [] → f' = f) ∧
      ∀ p < s.length, p ≠ f' → Beaten s p := by
  induction fuel generalizing i f with
  | zero => omega
  | succ fuel ih =>
    unfold duvalOuter
    by_cases hin : i < s.length
    · rw [if_pos hin]
      obtain ⟨j, k, h1, h2, h3⟩ := duvalInner_spec s i (s.length + 1) (i + 1) i (Window.init s i hin) (by omega)
      have hik := h2.ik
      have hkj := h2.kj
      have hjn := h2.jn
      obtain ⟨i', f', g1, g2, g3, g4, -, g6, g7⟩ := duvalAdvance_spec s i j k h2 h3 (s.length + 1) i f
        (Nat.le_refl _) (by omega) (by omega) (by intros; rfl) (by omega) (by omega) (by omega) hb hb2
      rw [h1]
      simp only [Res.ok_bind, g1]
      obtain ⟨f2, q1, q2, -, q4⟩ := ih i' f' (by omega) (by omega) (fun _ => g4 hik) g6 g7
      exact ⟨f2, q1, q2, fun e => by rw [e] at hin; simp at hin, q4⟩
    · rw [if_neg hin]
      have hi : i = s.length := by omega
      subst hi
      refine ⟨f, rfl, ?_, fun _ => rfl, hb⟩
      intro hne
      exact hf (List.length_pos_iff.2 hne)

/-- `duval` finds the smallest non-empty suffix. -/
theorem duval_spec (s : List UInt8) : ∃ f, duval s = Res.ok f ∧ (s ≠ [] → f < s.length) ∧
    (s = [] → f = 0) ∧ ∀ p < s.length, s.drop f ≤ s.drop p := by
  obtain ⟨f, h1, h2, h3, h4⟩ := duvalOuter_spec s (s.length + 1) 0 0 (by omega) (by omega) (by omega)
    (by intro p hp; omega) (by intro _ p hp; omega)
  refine ⟨f, h1, h2, h3, ?_⟩
  intro p hp
  -- the smallest suffix exists; it can only be `f`
  have hne : s ≠ [] := by intro e; rw [e] at hp; simp at hp
  have hmin : ∀ m, m ≤ s.length → 0 < m → ∃ q < m, ∀ p < m, s.drop q ≤ s.drop p := by
    intro m
    induction m with
    | zero => omega
    | succ m ih =>
      intro hm _
      by_cases h0 : m = 0
      · subst h0
        exact ⟨0, by omega, fun p hp => by rw [show p = 0 by omega]; exact List.le_refl _⟩
      · obtain ⟨q, hq, hqm⟩ := ih (by omega) (by omega)
        rcases List.le_total (s.drop q) (s.drop m) with h | h
        · refine ⟨q, by omega, fun p hp => ?_⟩
          by_cases hpm : p = m
          · rw [hpm]; exact h
          · exact hqm p (by omega)
        · refine ⟨m, by omega, fun p hp => ?_⟩
          by_cases hpm : p = m
          · rw [hpm]; exact List.le_refl _
          · exact List.le_trans h (hqm p (by omega))
  obtain ⟨q, hq, hqm⟩ := hmin s.length (Nat.le_refl _) (by omega)
  have : q = f := by
    by_contra hqf
    obtain ⟨r, hr, hlt⟩ := h4 q hq hqf
    exact hqm r hr hlt
  rw [← this]
  exact hqm p hp

end Ribzip2
