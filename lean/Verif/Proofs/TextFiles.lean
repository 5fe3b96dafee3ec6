import Verif.Proofs.BwtInjective
import Verif.Proofs.InverseBwt
/- Where the decoder goes wrong on the transform of an unsafe block: it reads a text that is larger than the block. -/
namespace Ribzip2
namespace Inj
open Spec

/-! ### The decoder walks along `psi` -/

section
variable {n : Nat} (L : Fin n → UInt8)

theorem sortedPairs_psi : sortedPairs (List.ofFn L) = List.ofFn fun k => ((psi L k).1, L (psi L k)) := by
  have hbase : (List.ofFn L).zipIdx.map (fun p => (p.2, p.1)) = List.ofFn fun k : Fin n => (k.1, L k) := by
    apply List.ext_getElem (by simp)
    intro i h1 h2
    simp
  have hperm : (sortedPairs (List.ofFn L)).Perm (List.ofFn fun k : Fin n => (k.1, L k)) := by
    rw [← hbase]; exact stableSort_perm _ _
  have hstable : (sortedPairs (List.ofFn L)).Pairwise fun x y => x.2 ≤ y.2 ∧ (y.2 ≤ x.2 → x.1 < y.1) := by
    have := stableSort_stable (fun x y : Nat × UInt8 => decide (x.2 ≤ y.2)) (fun x y => x.1 < y.1)
      (by intro a b; simp only [decide_eq_true_eq, UInt8.le_iff_toNat_le]; omega)
      (by intro a b c; simp only [decide_eq_true_eq, UInt8.le_iff_toNat_le]; omega)
      ((List.ofFn L).zipIdx.map (fun p => (p.2, p.1)))
      (by
        rw [hbase, List.pairwise_ofFn]
        exact fun i j h => h)
    exact this.imp (by simp)
  apply List.Perm.eq_of_pairwise (le := fun x y : Nat × UInt8 => x.2 ≤ y.2 ∧ (y.2 ≤ x.2 → x.1 < y.1))
  · intro a b _ _ h1 h2
    have := h1.2 h2.1
    have := h2.2 h1.1
    omega
  · exact hstable
  · rw [List.pairwise_ofFn]
    intro i j hij
    rcases (psi_lt L i j).1 hij with h | ⟨h, h'⟩
    · refine ⟨?_, fun hle => ?_⟩
      · rw [UInt8.lt_iff_toNat_lt] at h
        show L (psi L i) ≤ L (psi L j)
        rw [UInt8.le_iff_toNat_le]; omega
      · rw [UInt8.lt_iff_toNat_lt] at h
        have hle : L (psi L j) ≤ L (psi L i) := hle
        rw [UInt8.le_iff_toNat_le] at hle; omega
    · exact ⟨by rw [h]; exact UInt8.le_refl _, fun _ => h'⟩
  · refine hperm.trans ?_
    have := Equiv.Perm.ofFn_comp_perm (psi L) (fun k : Fin n => (k.1, L k))
    exact this.symm

theorem inverseBwtLoop_word (m : Nat) (k : Fin n) :
    inverseBwtLoop (sortedPairs (List.ofFn L)) m k.1 = Res.ok (word L m k) := by
  rw [sortedPairs_psi]
  induction m generalizing k with
  | zero => rfl
  | succ m ih =>
    unfold inverseBwtLoop
    have : idx (List.ofFn fun k => ((psi L k).1, L (psi L k))) k.1 = Res.ok ((psi L k).1, L (psi L k)) := by
      simp [idx, Res.ofOption]
    rw [this, Res.ok_bind]
    simp only
    rw [ih, Res.ok_bind]
    rfl

theorem inverseBwt_word (k : Fin n) : inverseBwt (List.ofFn L) k.1 = Res.ok (word L n k) := by
  unfold inverseBwt
  have hmem : (k.1, L k) ∈ sortedPairs (List.ofFn L) := by
    rw [sortedPairs_psi, List.mem_ofFn]
    exact ⟨(psi L).symm k, by simp⟩
  have hfind : ∃ q, (sortedPairs (List.ofFn L)).find? (fun p => p.1 == k.1) = some q ∧ q.1 = k.1 := by
    cases hf : (sortedPairs (List.ofFn L)).find? (fun p => p.1 == k.1) with
    | none =>
      have := List.find?_eq_none.1 hf _ hmem
      simp at this
    | some q => exact ⟨q, rfl, by simpa using List.find?_some hf⟩
  obtain ⟨q, hq1, hq2⟩ := hfind
  simp only [hq1, Res.ofOption, Res.ok_bind, hq2, List.length_ofFn]
  exact inverseBwtLoop_word L n k

end

/-! ### Where it leaves the string -/

variable {n : Nat} {r : List UInt8} {L : Fin n → UInt8} {row : Equiv.Perm (Fin n)}

theorem card_lt_of (P Q : Fin n → Prop) [DecidablePred P] [DecidablePred Q] (hsub : ∀ u, P u → Q u) (t : Fin n)
    (h1 : Q t) (h2 : ¬ P t) : (Finset.univ.filter P).card < (Finset.univ.filter Q).card := by
  apply Finset.card_lt_card
  rw [Finset.ssubset_iff_of_subset]
  · exact ⟨t, Finset.mem_filter.2 ⟨Finset.mem_univ _, h1⟩, fun h => h2 (Finset.mem_filter.1 h).2⟩
  · intro u hu
    exact Finset.mem_filter.2 ⟨Finset.mem_univ _, hsub u (Finset.mem_filter.1 hu).2⟩

/-- The number of rows before. -/
theorem Rows.card_eq [∀ a b, Decidable (keyLt L a b)] (h : Rows n r L row) (h0 : 0 < n)
    [∀ a b, Decidable (keyLt' L (rowZero row h0) a b)] (x : Fin n) :
    (Finset.univ.filter fun u => keyLt L u (psi L (row x))).card
      = (Finset.univ.filter fun u => keyLt' L (rowZero row h0) u (row (nx x))).card := by
  have e1 := rank_eq (psi L) (keyLt L) (psi_lt L) (psi L (row x))
  have e2 := rank_eq (nextRow row) (keyLt' L (rowZero row h0)) (h.nextRow_lt h0) (row (nx x))
  rw [Equiv.symm_apply_apply] at e1
  rw [nextRow_symm] at e2
  omega

/-- The decoder never goes to a smaller row than the right one. -/
theorem Rows.psi_ge (h : Rows n r L row) (h0 : 0 < n) (x : Fin n) (hx : x.1 + 1 ≠ n) :
    row (nx x) ≤ psi L (row x) := by
  classical
  have hne : row (nx x) ≠ rowZero row h0 := by
    rw [rowZero, row.injective.ne_iff, ne_eq, nx_eq_zero_iff]; exact hx
  rcases h.psi_cases h0 x with e | ⟨e, -, -⟩
  · exact le_of_eq e.symm
  · by_contra hlt
    have hlt := not_le.1 hlt
    have hc := h.card_eq h0 x
    generalize hp : psi L (row x) = p at *
    generalize row (nx x) = t at *
    have : (Finset.univ.filter fun u => keyLt L u p).card
        < (Finset.univ.filter fun u => keyLt' L (rowZero row h0) u t).card := by
      apply card_lt_of _ _ ?_ p
      · refine Or.inr ⟨e, ?_⟩
        by_cases hpK : p = rowZero row h0
        · exact Or.inl ⟨hpK, hne⟩
        · exact Or.inr ⟨hpK, hne, hlt⟩
      · simp [keyLt]
      · intro u hu
        rcases hu with hu | ⟨hu, hu'⟩
        · exact Or.inl (by rw [← e]; exact hu)
        · refine Or.inr ⟨by rw [hu, e], ?_⟩
          by_cases hpK : u = rowZero row h0
          · exact Or.inl ⟨hpK, hne⟩
          · exact Or.inr ⟨hpK, hne, lt_trans hu' hlt⟩
    omega

/-- From the position before a row `t` below row `K`, with the byte of `K`, the decoder goes to the next such row. -/
theorem Rows.psi_next (h : Rows n r L row) (h0 : 0 < n) (x : Fin n) (hL : L (row (nx x)) = L (rowZero row h0))
    (hlt : row (nx x) < rowZero row h0) :
    L (psi L (row x)) = L (rowZero row h0) ∧ row (nx x) < psi L (row x) ∧ psi L (row x) ≤ rowZero row h0 := by
  classical
  have hne : row (nx x) ≠ rowZero row h0 := ne_of_lt hlt
  have hx : x.1 + 1 ≠ n := by
    intro hc
    exact hne (by rw [rowZero, (nx_eq_zero_iff h0 x).2 hc])
  have hge := h.psi_ge h0 x hx
  have hc := h.card_eq h0 x
  rcases h.psi_cases h0 x with e | ⟨e, e2, -⟩
  · exfalso
    rw [e] at hc
    have : (Finset.univ.filter fun u => keyLt L u (row (nx x))).card
        < (Finset.univ.filter fun u => keyLt' L (rowZero row h0) u (row (nx x))).card := by
      apply card_lt_of _ _ ?_ (rowZero row h0)
      · exact Or.inr ⟨hL.symm, Or.inl ⟨rfl, hne⟩⟩
      · rintro (hc2 | ⟨-, hc2⟩)
        · rw [hL] at hc2; exact absurd hc2 (by simp)
        · exact absurd (lt_trans hlt hc2) (lt_irrefl _)
      · intro u hu
        rcases hu with hu | ⟨hu, hu'⟩
        · exact Or.inl hu
        · refine Or.inr ⟨hu, ?_⟩
          by_cases hpK : u = rowZero row h0
          · exact Or.inl ⟨hpK, hne⟩
          · exact Or.inr ⟨hpK, hne, hu'⟩
    omega
  · refine ⟨e.trans hL, lt_of_le_of_ne hge ?_, e2⟩
    intro hp
    rw [← hp] at hc
    have : (Finset.univ.filter fun u => keyLt L u (row (nx x))).card
        < (Finset.univ.filter fun u => keyLt' L (rowZero row h0) u (row (nx x))).card := by
      apply card_lt_of _ _ ?_ (rowZero row h0)
      · exact Or.inr ⟨hL.symm, Or.inl ⟨rfl, hne⟩⟩
      · rintro (hc2 | ⟨-, hc2⟩)
        · rw [hL] at hc2; exact absurd hc2 (by simp)
        · exact absurd (lt_trans hlt hc2) (lt_irrefl _)
      · intro u hu
        rcases hu with hu | ⟨hu, hu'⟩
        · exact Or.inl hu
        · refine Or.inr ⟨hu, ?_⟩
          by_cases hpK : u = rowZero row h0
          · exact Or.inl ⟨hpK, hne⟩
          · exact Or.inr ⟨hpK, hne, hu'⟩
    omega

/-- What the decoder reads from the row of a suffix is at least the suffix. -/
theorem Rows.word_ge (h : Rows n r L row) (h0 : 0 < n) (m : Nat) (x : Fin n) :
    (r.drop x.1).take m ≤ word L m (row x) := by
  induction m generalizing x with
  | zero => simp [word]
  | succ m ih =>
    have hL : L (psi L (row x)) = L (row (nx x)) := by
      rcases h.psi_cases h0 x with e | ⟨e, -, -⟩
      · rw [e]
      · exact e
    rw [h.pos x, List.take_succ_cons, word, List.cons_le_cons_iff, hL]
    refine Or.inr ⟨rfl, ?_⟩
    by_cases hx : x.1 + 1 = n
    · rw [List.drop_of_length_le (by rw [h.length]; omega)]; simp
    · have := ih (nx x)
      rw [nx_val x hx] at this
      exact List.le_trans this (word_mono L m _ _ (h.psi_ge h0 x hx))

theorem lt_le_trans {a b c : List UInt8} (h1 : a < b) (h2 : b ≤ c) : a < c := by
  rcases List.le_iff_lt_or_eq.1 h2 with h | h
  · exact List.lt_trans h1 h
  · exact h ▸ h1

theorem lt_take {a b : List UInt8} (h : a < b) (hp : ¬ a <+: b) : a < b.take a.length := by
  rcases List.le_iff_lt_or_eq.1 (le_take (List.le_of_lt h)) with h | h
  · exact h
  · exact absurd (h ▸ List.take_prefix _ _) hp

/-- Once it is larger, it was larger from every position before. -/
theorem Rows.word_gt (h : Rows n r L row) (h0 : 0 < n) (d : Nat) (x z : Fin n) (hz : z.1 + d = x.1)
    (hx : r.drop x.1 < word L (n - x.1) (row x)) : r.drop z.1 < word L (n - z.1) (row z) := by
  induction d generalizing z with
  | zero =>
    have : z = x := Fin.ext (by omega)
    rw [this]; exact hx
  | succ d ih =>
    have hzn : z.1 + 1 ≠ n := by have := x.2; omega
    have hv := nx_val z hzn
    have h1 := ih (nx z) (by omega)
    rw [hv] at h1
    have hL : L (psi L (row z)) = L (row (nx z)) := by
      rcases h.psi_cases h0 z with e | ⟨e, -, -⟩
      · rw [e]
      · exact e
    rw [h.pos z, show n - z.1 = (n - (z.1 + 1)) + 1 by have := x.2; omega, word, List.cons_lt_cons_iff, hL]
    refine Or.inr ⟨rfl, ?_⟩
    exact lt_le_trans h1 (word_mono L _ _ _ (h.psi_ge h0 z hzn))

/-- If the last byte `c` of the string stands, not in the first `a` bytes, before a suffix that is smaller than the
string and not a prefix of it, then what the decoder reads from position `a` is larger than what is there. -/
theorem Rows.word_wrong (h : Rows n r L row) (h0 : 0 < n) (a : Nat) (ha : a < n)
    (hc : ∀ x : Fin n, r[x.1]? = r[n - 1]? → a ≤ x.1) (z : Nat) (hz : z < n)
    (hz1 : r[z]? = r[n - 1]?) (hlt : r.drop (z + 1) < r) (hp : ¬ r.drop (z + 1) <+: r) :
    r.drop a < word L (n - a) (row ⟨a, ha⟩) := by
  classical
  have hn := h.length
  have hK : ∀ x : Fin n, r[x.1]? = r[n - 1]? ↔ L (row (nx x)) = L (rowZero row h0) := by
    intro x
    have e := h.column ⟨n - 1, by omega⟩
    rw [show nx (⟨n - 1, by omega⟩ : Fin n) = ⟨0, h0⟩ from (nx_eq_zero_iff h0 _).2 (by simp only; omega)] at e
    rw [h.column x]
    simp only at e
    rw [e, rowZero]
    simp
  have hzn : z + 1 ≠ n := by
    intro e
    rw [e, List.drop_of_length_le (by omega)] at hp
    exact hp List.nil_prefix
  -- rows below `K` with the byte of `K` whose text is not a prefix of the string
  let good : Fin n → Prop := fun u => L u = L (rowZero row h0) ∧ u < rowZero row h0 ∧ ¬ r.drop (row.symm u).1 <+: r
  have hmem : good (row (nx ⟨z, hz⟩)) := by
    refine ⟨(hK ⟨z, hz⟩).1 hz1, ?_, ?_⟩
    · rw [rowZero, h.order, nx_val _ hzn]; simpa using hlt
    · rw [Equiv.symm_apply_apply, nx_val _ hzn]; exact hp
  obtain ⟨u, hu, hmax⟩ : ∃ u, good u ∧ ∀ v, good v → v ≤ u := by
    have hne : (Finset.univ.filter good).Nonempty := ⟨_, by simpa using hmem⟩
    refine ⟨(Finset.univ.filter good).max' hne, ?_, fun v hv => ?_⟩
    · simpa using Finset.max'_mem _ hne
    · exact Finset.le_max' _ _ (by simpa using hv)
  obtain ⟨x, rfl⟩ : ∃ x, u = row (nx x) := by
    obtain ⟨y, rfl⟩ := row.surjective u
    obtain ⟨x, rfl⟩ := (Finite.injective_iff_bijective.1 (nx_injective (n := n))).2 y
    exact ⟨x, rfl⟩
  obtain ⟨u1, u2, u3⟩ := hu
  rw [Equiv.symm_apply_apply] at u3
  obtain ⟨p1, p2, p3⟩ := h.psi_next h0 x u1 u2
  have hxn : x.1 + 1 ≠ n := by
    intro e
    rw [(nx_eq_zero_iff h0 x).2 e] at u2
    exact absurd u2 (lt_irrefl _)
  have hv := nx_val x hxn
  rw [hv] at u3
  -- the text of the row the decoder goes to
  obtain ⟨q, hq⟩ := row.surjective (psi L (row x))
  have hlt' : r.drop (x.1 + 1) < r.drop q.1 := by
    rw [← hv, ← h.order, hq]; exact p2
  have hnp : ¬ r.drop (x.1 + 1) <+: r.drop q.1 := by
    intro hpre
    refine u3 (hpre.trans ?_)
    rcases lt_or_eq_of_le p3 with h3 | h3
    · by_contra hc2
      have := hmax (psi L (row x)) ⟨p1, h3, by rw [← hq, Equiv.symm_apply_apply]; exact hc2⟩
      exact absurd (lt_of_lt_of_le p2 this) (lt_irrefl _)
    · rw [h3, rowZero, row.injective.eq_iff] at hq
      rw [hq]; simp
  have hx : r.drop x.1 < word L (n - x.1) (row x) := by
    have hL : L (psi L (row x)) = L (row (nx x)) := by rw [p1, u1]
    rw [h.pos x, show n - x.1 = (n - (x.1 + 1)) + 1 by have := x.2; omega, word, List.cons_lt_cons_iff, hL]
    refine Or.inr ⟨rfl, ?_⟩
    have h1 := lt_take hlt' hnp
    rw [List.length_drop, hn] at h1
    refine lt_le_trans h1 ?_
    rw [← hq]
    exact h.word_ge h0 _ q
  have hax := hc x ((hK x).2 u1)
  exact h.word_gt h0 (x.1 - a) x ⟨a, ha⟩ (by simp only; omega) hx

end Inj

end Ribzip2
