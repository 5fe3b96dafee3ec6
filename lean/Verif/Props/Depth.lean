import Verif.Proofs.Steps
/- Property C75: the depth of the recursions. -/
namespace Ribzip2
open Spec

/-! ### C75 -/

/-- Calls nested deeper than needed change nothing. -/
theorem buildSuffixArrayRec_mono (k : Nat) (T : List Nat) (K : Nat) (sa : List (Option Nat))
    (h : buildSuffixArrayRec k T K = Res.ok sa) : buildSuffixArrayRec (k + 1) T K = Res.ok sa := by
  induction k generalizing T K sa with
  | zero => simp [buildSuffixArrayRec] at h
  | succ k ih =>
    rw [buildSuffixArrayRec] at h ⊢
    simp only [bind_is_ok] at h ⊢
    obtain ⟨a1, e1, a2, e2, a3, e3, a4, e4, a5, e5, e6⟩ := h
    refine ⟨a1, e1, a2, e2, a3, e3, a4, e4, a5, e5, ?_⟩
    split at e6
    · next hc => rw [if_pos hc]; exact e6
    · next hc =>
      rw [if_neg hc]
      simp only [bind_is_ok] at e6 ⊢
      obtain ⟨a6, e6, e7⟩ := e6
      exact ⟨a6, ih _ _ _ e6, e7⟩

theorem buildSuffixArrayRec_le {k m : Nat} (hk : k ≤ m) (T : List Nat) (K : Nat) (sa : List (Option Nat))
    (h : buildSuffixArrayRec k T K = Res.ok sa) : buildSuffixArrayRec m T K = Res.ok sa := by
  induction hk with
  | refl => exact h
  | step _ ih => exact buildSuffixArrayRec_mono _ _ _ _ ih

/-- **C75 (suffix sort).** The first argument of `buildSuffixArrayRec` is the number of nested calls allowed: with
none left it has the result `div`. To sort the suffixes of a byte string of at most `2 ^ k` bytes, `k + 1` nested
calls are enough, whatever the bytes: the sort comes to an end and its result is that of the library. -/
theorem C75_suffix_sort_depth (k : Nat) (s : List UInt8) (h : s.length ≤ 2 ^ k) :
    ∃ sa, (buildSuffixArrayRec (k + 1) (s.map UInt8.toNat) 256 >>= unwrapAll) = Res.ok sa ∧
      buildSuffixArray s = Res.ok sa := by
  have hb : ∀ x ∈ s.map UInt8.toNat, x < 256 := by
    intro x hx
    rw [List.mem_map] at hx
    obtain ⟨b, -, rfl⟩ := hx
    exact UInt8.toNat_lt b
  obtain ⟨sa, h1, l, rfl, -⟩ := Sais.build_depth k (s.map UInt8.toNat) 256 hb (by simpa using h)
  obtain ⟨sa', h2, -⟩ := Sais.build_spec (s.length + 1) (s.map UInt8.toNat) 256 hb (by simp)
  have e : sa' = l.map some := by
    have a := buildSuffixArrayRec_le (Nat.le_max_left (k + 1) (s.length + 1)) _ _ _ h1
    have b := buildSuffixArrayRec_le (Nat.le_max_right (k + 1) (s.length + 1)) _ _ _ h2
    rw [a] at b
    injection b with b
    exact b.symm
  refine ⟨l, by rw [h1, Res.ok_bind, Sais.unwrapAll_map], ?_⟩
  rw [buildSuffixArray, h2, e, Res.ok_bind, Sais.unwrapAll_map]

/-- **C75 (blocks).** No block makes the suffix sort nest more than 21 calls. -/
theorem C75_suffix_sort_of_a_block (s : List UInt8) (h : s.length ≤ 900005) :
    ∃ sa, (buildSuffixArrayRec 21 (s.map UInt8.toNat) 256 >>= unwrapAll) = Res.ok sa ∧
      buildSuffixArray s = Res.ok sa :=
  C75_suffix_sort_depth 20 s (by omega)

/-- One call is not enough for `abababab`: the sort does call itself, and two calls are enough. -/
example : buildSuffixArrayRec 1 [0, 1, 0, 1, 0, 1, 0, 1] 2 = Res.div ∧
    (buildSuffixArrayRec 2 [0, 1, 0, 1, 0, 1, 0, 1] 2 >>= unwrapAll) = Res.ok [8, 6, 4, 2, 0, 7, 5, 3, 1] := by
  decide +kernel

/-- **C75 (code lengths).** The trees of coins that are built, copied, flattened and dropped recursively: with a length
limit `limit` and any weights of the symbols, all trees at the end of the algorithm have at most `limit + 1` levels,
and together they have at most `limit` coins for each symbol. -/
theorem C75_coin_trees (weights : List Nat) (limit : Nat) (coins : List Coin)
    (hc : coins = (List.range limit).flatMap (fun i => weights.map (fun w => (⟨w, i + 1⟩ : Coin)))) :
    (∀ t ∈ packageLoop coins limit [], t.depth ≤ limit + 1) ∧
    ((packageLoop coins limit []).map fun t => t.flatten.length).sum ≤ limit * weights.length ∧
    (weights ≠ [] → 0 < limit → packageMerge coins = Res.ok ((packageLoop coins limit []).map CoinEntry.flatten)) := by
  refine ⟨fun t ht => ?_, ?_, fun hw hl => ?_⟩
  · have := packageLoop_depth coins limit 1 [] (le_refl _) (by simp) t ht
    omega
  · have h1 := leaves_packageLoop coins limit []
    have h2 : (coins.filter fun c => c.exponent ≤ limit).length ≤ coins.length := List.length_filter_le _ _
    have h3 : coins.length = limit * weights.length := by
      rw [hc, List.length_flatMap]; simp
    simp only [leaves, List.map_nil, List.sum_nil] at h1
    omega
  · have hm : (coins.map fun c => c.exponent).max? = some limit := by
      rw [List.max?_eq_some_iff]
      obtain ⟨w, ws, rfl⟩ := List.exists_cons_of_ne_nil hw
      subst hc
      constructor
      · simp only [List.mem_map, List.mem_flatMap, List.mem_range]
        exact ⟨⟨w, limit⟩, ⟨limit - 1, by omega, w, by simp, by rw [show limit - 1 + 1 = limit by omega]⟩, rfl⟩
      · intro b hb
        simp only [List.mem_map, List.mem_flatMap, List.mem_range] at hb
        obtain ⟨c, ⟨i, hi, w', -, rfl⟩, rfl⟩ := hb
        exact hi
    rw [packageMerge, hm]
    rfl

/-- The lengths of three symbols with limit 17: the deepest tree has three levels, and the bounds are 18 levels and
51 coins. -/
example : ∃ coins : List Coin,
    coins = (List.range 17).flatMap (fun i => [5, 7, 9].map (fun w => (⟨w, i + 1⟩ : Coin))) ∧
      (packageLoop coins 17 []).map CoinEntry.depth = [2, 3] ∧ coins.length = 51 ∧ computeLis [5, 7, 9] 17 = Res.ok [2, 2, 1] :=
  ⟨_, rfl, by decide +kernel, by decide +kernel, by decide +kernel⟩

end Ribzip2
