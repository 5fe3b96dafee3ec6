import Verif.Proofs.SaisMain
import Verif.Proofs.PackageMerge
/- Depth of the recursions of the encoder: the suffix sort and the coin trees. -/
namespace Ribzip2
open Spec

namespace Sais

/-- Positions that are never neighbours. -/
theorem filter_sparse (p : Nat → Bool) (h : ∀ i, p i = true → p (i + 1) = false) (k s : Nat) :
    2 * ((List.range' s k).filter p).length ≤ k + 1 ∧
      (p s = false → 2 * ((List.range' s k).filter p).length ≤ k) := by
  induction k generalizing s with
  | zero => simp
  | succ k ih =>
    rw [List.range'_succ, List.filter_cons]
    obtain ⟨h1, h2⟩ := ih (s + 1)
    by_cases hp : p s = true
    · rw [if_pos hp]
      have := h2 (h s hp)
      simp only [List.length_cons]
      exact ⟨by omega, by simp [hp]⟩
    · rw [if_neg hp]
      exact ⟨by omega, fun _ => by omega⟩

/-- At most every other position starts an LMS suffix. -/
theorem offs_half (T : List Nat) (h : T ≠ []) : 2 * (offs T).length ≤ T.length + 1 := by
  have hn : 0 < T.length := List.length_pos_iff.2 h
  have hsp : ∀ i, lms T i = true → lms T (i + 1) = false := by
    intro i hi
    by_contra hc
    have h1 := lms_iff.1 hi
    have h2 := lms_iff.1 (by simpa using hc : lms T (i + 1) = true)
    rw [show i + 1 - 1 = i by omega, h1.2.1] at h2
    simp at h2
  -- the last position is of type L
  have hlast : lms T (T.length - 1) = false := by
    by_contra hc
    have h2 := lms_iff.1 (by simpa using hc : lms T (T.length - 1) = true)
    have := (typ_S (by omega) h2.2.1).1
    omega
  have hl : (List.range T.length).filter (lms T) = (List.range' 0 (T.length - 1)).filter (lms T) := by
    obtain ⟨n, hn'⟩ : ∃ n, T.length = n + 1 := ⟨T.length - 1, by omega⟩
    rw [hn'] at hlast ⊢
    rw [List.range_succ, List.filter_append, show n + 1 - 1 = n by omega, List.range_eq_range']
    simp only [Nat.add_sub_cancel] at hlast
    simp [hlast]
  have h0 : lms T 0 = false := by simp [lms]
  have := (filter_sparse (lms T) hsp (T.length - 1) 0).2 h0
  rw [offs, List.length_append, hl, List.length_singleton]
  omega

/-- The recursion is logarithmic: `fuel` bounds the number of nested calls. -/
theorem build_depth (k : Nat) (T : List Nat) (K : Nat) (hK : ∀ x ∈ T, x < K) (hf : T.length ≤ 2 ^ k) :
    ∃ sa, buildSuffixArrayRec (k + 1) T K = Res.ok sa ∧ IsSA T sa := by
  have hhalf : ∀ n, (offs T).length ≤ n ∨ T = [] ∨ n < (T.length + 1) / 2 := by
    intro n
    by_cases hT : T = []
    · exact Or.inr (Or.inl hT)
    · have := offs_half T hT
      omega
  have hnil : T = [] → (offs T).length = 1 := by rintro rfl; simp [offs]
  induction k generalizing T K with
  | zero =>
    refine build_step 0 T K hK fun R K' hR h2 hl => ?_
    exfalso
    rcases hhalf 1 with h | h | h
    · omega
    · have := hnil h; omega
    · simp at hf; omega
  | succ k ih =>
    refine build_step (k + 1) T K hK fun R K' hR h2 hl => ih R K' hR ?_ ?_ ?_
    · rcases hhalf (2 ^ k) with h | h | h
      · omega
      · have := hnil h; omega
      · rw [Nat.pow_succ] at hf; omega
    · intro n
      by_cases hT : R = []
      · exact Or.inr (Or.inl hT)
      · have := offs_half R hT
        omega
    · rintro rfl; simp [offs]

end Sais

/-! ### coin trees -/

/-- Number of nested calls of `flatten` (lib/src/block/huffman/package_merge.rs:111-122), and of the derived `clone`
and `drop`, on an entry. -/
def CoinEntry.depth : CoinEntry → Nat
  | one _ _ => 1
  | two _ l r => 1 + max l.depth r.depth

theorem mergePairs_depth (l : List CoinEntry) (n : Nat) (h : ∀ x ∈ l, x.depth ≤ n) :
    ∀ y ∈ mergePairs l, y.depth ≤ n + 1 := by
  fun_induction mergePairs l with
  | case1 a b rest ih =>
    intro y hy
    rcases List.mem_cons.1 hy with rfl | hy
    · have h1 := h a (by simp)
      have h2 := h b (by simp)
      simp only [CoinEntry.depth]
      omega
    · exact ih (fun x hx => h x (by simp [hx])) y hy
  | case2 l h => simp

theorem coinsAt_depth (coins : List Coin) (e : Nat) : ∀ x ∈ coinsAt coins e, x.depth = 1 := by
  intro x hx
  rw [coinsAt, (stableSort_perm _ _).mem_iff, List.mem_map] at hx
  obtain ⟨c, -, rfl⟩ := hx
  rfl

theorem packageLoop_depth (coins : List Coin) (e n : Nat) (tm : List CoinEntry) (hn : 1 ≤ n) (h : ∀ x ∈ tm, x.depth ≤ n) :
    ∀ y ∈ packageLoop coins e tm, y.depth ≤ n + e := by
  induction e generalizing n tm with
  | zero =>
    intro y hy
    rw [packageLoop, (stableSort_perm _ _).mem_iff, List.mem_append] at hy
    rcases hy with hy | hy
    · have := coinsAt_depth coins 0 y hy; omega
    · exact h y hy
  | succ e ih =>
    intro y hy
    rw [packageLoop] at hy
    have := ih (n + 1) _ (by omega) (mergePairs_depth _ n fun x hx => by
      rw [(stableSort_perm _ _).mem_iff, List.mem_append] at hx
      rcases hx with hx | hx
      · have := coinsAt_depth coins (e + 1) x hx; omega
      · exact h x hx) y hy
    omega

/-- The number of coins in the entries of a list. -/
def leaves (l : List CoinEntry) : Nat := (l.map fun x => x.flatten.length).sum

theorem leaves_perm {a b : List CoinEntry} (h : a.Perm b) : leaves a = leaves b :=
  (h.map _).sum_nat

theorem leaves_append (a b : List CoinEntry) : leaves (a ++ b) = leaves a + leaves b := by
  simp [leaves]

theorem leaves_mergePairs (l : List CoinEntry) : leaves (mergePairs l) ≤ leaves l := by
  fun_induction mergePairs l with
  | case1 a b rest ih =>
    simp only [leaves, List.map_cons, List.sum_cons, CoinEntry.flatten, List.length_append] at ih ⊢
    omega
  | case2 l h => simp [leaves]

theorem leaves_coinsAt (coins : List Coin) (e : Nat) : leaves (coinsAt coins e) = (coins.filter fun c => c.exponent = e).length := by
  rw [coinsAt, leaves_perm (stableSort_perm _ _), leaves, List.map_map]
  simp [Function.comp_def, CoinEntry.flatten]

theorem leaves_packageLoop (coins : List Coin) (e : Nat) (tm : List CoinEntry) :
    leaves (packageLoop coins e tm) ≤ (coins.filter fun c => c.exponent ≤ e).length + leaves tm := by
  induction e generalizing tm with
  | zero =>
    rw [packageLoop, leaves_perm (stableSort_perm _ _), leaves_append, leaves_coinsAt]
    simp
  | succ e ih =>
    rw [packageLoop]
    have h1 := ih (mergePairs (stableSort CoinEntry.le (coinsAt coins (e + 1) ++ tm)))
    have h2 := leaves_mergePairs (stableSort CoinEntry.le (coinsAt coins (e + 1) ++ tm))
    rw [leaves_perm (stableSort_perm _ _), leaves_append, leaves_coinsAt] at h2
    have h3 : (coins.filter fun c => c.exponent ≤ e + 1).length
        = (coins.filter fun c => c.exponent ≤ e).length + (coins.filter fun c => c.exponent = e + 1).length := by
      clear * -
      induction coins with
      | nil => rfl
      | cons c cs ih =>
        simp only [List.filter_cons]
        by_cases h1 : c.exponent ≤ e
        · have h2 : c.exponent ≤ e + 1 := by omega
          have h3 : ¬ c.exponent = e + 1 := by omega
          simp [h1, h2, h3, ih]; omega
        · by_cases h3 : c.exponent = e + 1
          · have h2 : c.exponent ≤ e + 1 := by omega
            simp [h1, h2, h3, ih]; omega
          · have h2 : ¬ c.exponent ≤ e + 1 := by omega
            simp [h1, h2, h3, ih]
    omega

end Ribzip2
