import Verif.Model.HashOrder
import Verif.Proofs.PackageMerge
import Verif.Proofs.Canonical
/- Property C76: the random seeds of hash maps. -/
namespace Ribzip2
open Spec

theorem CoinMap.lookup_insert (m : CoinMap) (k : Nat) (v : List CoinEntry) (j : Nat) :
    (m.insert k v).lookup j = if j = k then some v else m.lookup j := by
  unfold CoinMap.insert
  split
  · rename_i h
    induction m with
    | nil => simp at h
    | cons e m ih =>
      obtain ⟨a, b⟩ := e
      rw [List.map_cons]
      by_cases hak : a = k
      · subst hak
        simp only [if_true, List.lookup_cons]
        by_cases hj : j = a
        · subst hj; simp
        · have hj' : (j == a) = false := by simpa using hj
          simp only [hj', if_neg hj]
          clear ih h
          induction m with
          | nil => rfl
          | cons e m ih2 =>
            obtain ⟨a', b'⟩ := e
            rw [List.map_cons]
            by_cases haa : a' = a
            · subst haa; simp only [if_true, List.lookup_cons, hj', ih2]
            · simp only [haa, if_false, List.lookup_cons, ih2]
      · have h' : m.any (fun e => decide (e.1 = k)) = true := by simpa [hak] using h
        simp only [hak, if_false, List.lookup_cons, ih h']
        by_cases hj : j = a
        · subst hj; simp [hak]
        · have hj' : (j == a) = false := by simpa using hj
          simp only [hj']
  · simp only [List.lookup_cons]
    by_cases hj : j = k
    · subst hj; simp
    · have hj' : (j == k) = false := by simpa using hj
      simp only [hj', if_neg hj]

def CoinMap.keys (m : CoinMap) : List Nat := m.map (fun e => e.1)

theorem CoinMap.keys_insert (m : CoinMap) (k : Nat) (v : List CoinEntry) :
    (m.insert k v).keys = if k ∈ m.keys then m.keys else k :: m.keys := by
  have hc : m.any (fun e => decide (e.1 = k)) = true ↔ k ∈ m.keys := by
    simp [CoinMap.keys, List.any_eq_true]
  unfold CoinMap.insert
  by_cases h : k ∈ m.keys
  · rw [if_pos (hc.2 h), if_pos h, CoinMap.keys, CoinMap.keys, List.map_map]
    apply List.map_congr_left
    intro e _
    by_cases he : e.1 = k <;> simp [he]
  · rw [if_neg (fun x => h (hc.1 x)), if_neg h]; rfl

theorem CoinMap.lookup_mem {m : CoinMap} (hn : m.keys.Nodup) (k : Nat) (v : List CoinEntry) :
    m.lookup k = some v ↔ (k, v) ∈ m := by
  induction m with
  | nil => simp
  | cons e m ih =>
    obtain ⟨a, b⟩ := e
    simp only [CoinMap.keys, List.map_cons, List.nodup_cons] at hn
    rw [List.lookup_cons, List.mem_cons, Prod.mk.injEq]
    by_cases hk : k = a
    · subst hk
      simp only [beq_self_eq_true, Option.some.injEq, true_and]
      refine ⟨fun h => Or.inl h.symm, fun h => ?_⟩
      rcases h with h | h
      · exact h.symm
      · exact absurd (List.mem_map.2 ⟨_, h, rfl⟩) hn.1
    · have hk' : (k == a) = false := by simpa using hk
      simp only [hk', ih hn.2, hk, false_and, false_or]

theorem CoinMap.lookup_perm {m m' : CoinMap} (h : m'.Perm m) (hn : m.keys.Nodup) (k : Nat) :
    m'.lookup k = m.lookup k := by
  have hn' : m'.keys.Nodup := (h.map _).nodup_iff.2 hn
  apply Option.ext
  intro v
  rw [CoinMap.lookup_mem hn', CoinMap.lookup_mem hn, h.mem_iff]

theorem CoinMap.lookup_map (m : CoinMap) (f : List CoinEntry → List CoinEntry) (k : Nat) :
    List.lookup k (m.map (fun e => (e.1, f e.2))) = (m.lookup k).map f := by
  induction m with
  | nil => rfl
  | cons e m ih =>
    obtain ⟨a, b⟩ := e
    rw [List.map_cons, List.lookup_cons, List.lookup_cons, ih]
    cases k == a <;> rfl

/-- The empty lists for the exponents. -/
theorem CoinMap.initial (n : Nat) :
    (∀ k < n, ((List.range n).foldl (fun (m : CoinMap) i => m.insert i []) []).lookup k = some []) ∧
    ((List.range n).foldl (fun (m : CoinMap) i => m.insert i []) []).keys = (List.range n).reverse := by
  induction n with
  | zero => simp [CoinMap.keys]
  | succ n ih =>
    rw [List.range_succ, List.foldl_append]
    simp only [List.foldl_cons, List.foldl_nil]
    generalize hm : List.foldl (fun (m : CoinMap) i => m.insert i []) [] (List.range n) = m at ih
    obtain ⟨i1, i2⟩ := ih
    refine ⟨fun k hk => ?_, ?_⟩
    · rw [CoinMap.lookup_insert]
      split
      · rfl
      · exact i1 k (by omega)
    · rw [CoinMap.keys_insert, if_neg (by rw [i2]; simp), i2, List.reverse_append]; rfl

theorem pushCoins_spec (coins : List Coin) (n : Nat) (hc : ∀ c ∈ coins, c.exponent < n) (m : CoinMap)
    (g : Nat → List CoinEntry) (hm : ∀ k < n, m.lookup k = some (g k)) (hk : ∀ k < n, k ∈ m.keys) :
    ∃ m', pushCoins coins m = Res.ok m' ∧ m'.keys = m.keys ∧ ∀ k < n, m'.lookup k
      = some (g k ++ (coins.filter (fun c => c.exponent = k)).map (fun c => CoinEntry.one c.value c)) := by
  induction coins generalizing m g with
  | nil => exact ⟨m, rfl, rfl, by simpa using hm⟩
  | cons c cs ih =>
    have h1 : c.exponent < n := hc c (by simp)
    have hp : pushCoin m c = Res.ok (m.insert c.exponent (g c.exponent ++ [CoinEntry.one c.value c])) := by
      simp [pushCoin, CoinMap.get, hm _ h1, Res.ofOption]
    have hkk : (m.insert c.exponent (g c.exponent ++ [CoinEntry.one c.value c])).keys = m.keys := by
      rw [CoinMap.keys_insert, if_pos (hk _ h1)]
    obtain ⟨m', e1, e2, e3⟩ := ih (fun x hx => hc x (by simp [hx]))
      (m.insert c.exponent (g c.exponent ++ [CoinEntry.one c.value c]))
      (fun k => if k = c.exponent then g c.exponent ++ [CoinEntry.one c.value c] else g k) (by
        intro k hk
        rw [CoinMap.lookup_insert]
        split
        · rfl
        · exact hm k hk) (by rw [hkk]; exact hk)
    refine ⟨m', ?_, e2.trans hkk, fun k hk => ?_⟩
    · rw [pushCoins, hp, Res.ok_bind, e1]
    · rw [e3 k hk, List.filter_cons]
      by_cases he : k = c.exponent
      · subst he; simp
      · have he' : ¬ c.exponent = k := fun h => he h.symm
        simp [he, he']

theorem keyLoop_spec (coins : List Coin) (e : Nat) (m : CoinMap) (tm last : List CoinEntry)
    (hm : ∀ k ≤ e, m.lookup k = some (coinsAt coins k)) :
    keyLoop (List.range (e + 1)).reverse m tm last = Res.ok (packageLoop coins e tm) := by
  induction e generalizing m tm last with
  | zero =>
    simp [keyLoop, CoinMap.get, hm 0 (le_refl _), Res.ofOption, packageLoop]
  | succ e ih =>
    rw [List.range_succ, List.reverse_append, List.reverse_singleton, List.singleton_append, keyLoop]
    simp only [CoinMap.get, hm (e + 1) (le_refl _), Res.ofOption, Res.ok_bind]
    rw [ih, packageLoop]
    intro k hk
    rw [CoinMap.lookup_insert, if_neg (by omega)]
    exact hm k (by omega)

/-- **C76.** The only source of randomness of the program are the seeds of hash maps, which decide in which order the
entries of a map are visited: whatever the two orders are, in which the map of `package_merge` is visited, the result
is the same, that of the model of `package_merge` used in all other theorems. -/
theorem C76_hash_seeds_do_not_matter (order1 order2 : CoinMap → CoinMap) (h1 : ∀ m, (order1 m).Perm m)
    (h2 : ∀ m, (order2 m).Perm m) (coins : List Coin) :
    packageMergeHash order1 order2 coins = packageMerge coins := by
  unfold packageMergeHash packageMerge
  cases hmax : (coins.map (fun c => c.exponent)).max? with
  | none => rfl
  | some maxExp =>
    simp only [Res.ofOption, Res.ok_bind]
    rw [List.max?_eq_some_iff] at hmax
    have hc : ∀ c ∈ coins, c.exponent < maxExp + 1 := fun c hc =>
      Nat.lt_succ_of_le (hmax.2 _ (List.mem_map.2 ⟨c, hc, rfl⟩))
    obtain ⟨a1, a2⟩ := CoinMap.initial (maxExp + 1)
    generalize List.foldl (fun (m : CoinMap) i => m.insert i []) [] (List.range (maxExp + 1)) = m0 at a1 a2
    obtain ⟨m1, b1, b2, b3⟩ := pushCoins_spec coins (maxExp + 1) hc m0 (fun _ => []) a1 (by
      intro k hk; rw [a2]; simp; omega)
    have hn1 : m1.keys.Nodup := by rw [b2, a2]; exact (List.nodup_reverse.2 List.nodup_range)
    have hord := h1 m1
    generalize hm2 : (order1 m1).map (fun e => (e.1, stableSort CoinEntry.le e.2)) = m2
    have hk2 : CoinMap.keys m2 = (order1 m1).keys := by
      rw [← hm2, CoinMap.keys, CoinMap.keys, List.map_map]; rfl
    have hl2 : ∀ k ≤ maxExp, m2.lookup k = some (coinsAt coins k) := by
      intro k hk
      rw [← hm2, CoinMap.lookup_map (f := stableSort CoinEntry.le), CoinMap.lookup_perm hord hn1, b3 k (by omega)]
      rfl
    have hkeys : stableSort (fun a b => decide (a ≤ b)) ((order2 m2).map (fun e => e.1)) = List.range (maxExp + 1) := by
      have hp : ((order2 m2).map (fun e => e.1)).Perm (List.range (maxExp + 1)) := by
        refine ((h2 m2).map _).trans ?_
        change (CoinMap.keys m2).Perm _
        rw [hk2]
        refine (hord.map _).trans ?_
        change (CoinMap.keys m1).Perm _
        rw [b2, a2]
        exact List.reverse_perm _
      have hs := stableSort_sorted (fun a b : Nat => decide (a ≤ b)) (by simp; omega) (by simp; omega)
        ((order2 m2).map (fun e => e.1))
      refine List.Perm.eq_of_pairwise (le := (· ≤ ·)) ?_ (by simpa using hs) ?_ ((stableSort_perm _ _).trans hp)
      · intro a b _ _ h1 h2; omega
      · exact (List.pairwise_lt_range (n := maxExp + 1)).imp (fun h => Nat.le_of_lt h)
    simp only [b1, Res.ok_bind, hm2, hkeys]
    rw [keyLoop_spec coins maxExp m2 [] [] hl2]
    rfl

/-- **C76 (code lengths).** The code lengths, all that is derived from the map, are the same for all seeds. -/
theorem C76_code_lengths_do_not_depend_on_seeds (order1 order2 order1' order2' : CoinMap → CoinMap)
    (h1 : ∀ m, (order1 m).Perm m) (h2 : ∀ m, (order2 m).Perm m) (h1' : ∀ m, (order1' m).Perm m)
    (h2' : ∀ m, (order2' m).Perm m) (weights : List Nat) (limit : Nat) :
    computeLisHash order1 order2 weights limit = computeLisHash order1' order2' weights limit ∧
    computeLisHash order1 order2 weights limit = computeLis weights limit := by
  simp only [computeLisHash, computeLis, C76_hash_seeds_do_not_matter order1 order2 h1 h2,
    C76_hash_seeds_do_not_matter order1' order2' h1' h2', and_self]

/-- Two orders that really differ on the map that is built, and code lengths that are not trivial. -/
example : (∀ m : CoinMap, m.reverse.Perm m) ∧
    pushCoins [⟨5, 1⟩, ⟨7, 2⟩] [(2, []), (1, []), (0, [])]
      = Res.ok [(2, [CoinEntry.one 7 ⟨7, 2⟩]), (1, [CoinEntry.one 5 ⟨5, 1⟩]), (0, [])] ∧
    computeLisHash List.reverse id [1, 2, 4, 8] 17 = Res.ok [3, 3, 2, 1] :=
  ⟨fun m => List.reverse_perm m, by decide +kernel, by decide +kernel⟩

end Ribzip2
