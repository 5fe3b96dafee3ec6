import Verif.Proofs.StepsBlock
import Verif.Proofs.Size
import Mathlib.Tactic.Ring
/- The number of steps it takes to make a code table. -/
namespace Ribzip2
open Spec Cost

/-! ### package_merge.rs -/

theorem CoinEntry.nodes_eq (e : CoinEntry) : e.nodes + 1 = 2 * e.flatten.length := by
  induction e with
  | one v c => rfl
  | two v l r hl hr =>
    simp only [nodes, flatten, List.length_append]
    omega

theorem CoinEntry.depth_pos (e : CoinEntry) : 1 ≤ e.depth := by
  cases e <;> simp [depth]

theorem CoinEntry.flattenC_runs (e : CoinEntry) : RunsIn e.flattenC e.flatten (e.flatten.length * (e.depth + 1)) := by
  induction e with
  | one v c => exact (runs_ticked (runs_pure _)).mono (by simp [depth, flatten])
  | two v l r hl hr =>
    refine RunsIn.mono (A := 1 + (l.flatten.length * (l.depth + 1) + (r.flatten.length * (r.depth + 1)
      + (r.flatten.length + 0)))) (runs_ticked (runs_bind hl (runs_bind hr (runs_ticked (runs_pure _))))) ?_
    simp only [flatten, depth, List.length_append]
    have hp : 1 ≤ l.flatten.length := by have := l.nodes_eq; omega
    have h1 : l.flatten.length * (l.depth + 1) ≤ l.flatten.length * (max l.depth r.depth + 1) :=
      Nat.mul_le_mul_left _ (by omega)
    have h2 : r.flatten.length * (r.depth + 1) ≤ r.flatten.length * (max l.depth r.depth + 1) :=
      Nat.mul_le_mul_left _ (by omega)
    have h3 : (l.flatten.length + r.flatten.length) * (1 + max l.depth r.depth + 1)
      = l.flatten.length * (max l.depth r.depth + 1) + r.flatten.length * (max l.depth r.depth + 1)
        + l.flatten.length + r.flatten.length := by ring
    omega

theorem flattenAllC_runs (l : List CoinEntry) (D : Nat) (h : ∀ e ∈ l, e.depth ≤ D) :
    RunsIn (flattenAllC l) (l.map CoinEntry.flatten) (l.length + leaves l * (D + 1)) := by
  induction l with
  | nil => exact (runs_pure _).mono (by omega)
  | cons e l ih =>
    refine RunsIn.mono (A := 1 + (e.flatten.length * (e.depth + 1) + ((l.length + leaves l * (D + 1)) + 0)))
      (runs_ticked (runs_bind e.flattenC_runs (runs_bind (ih fun x hx => h x (by simp [hx])) (runs_pure _)))) ?_
    have h1 : e.flatten.length * (e.depth + 1) ≤ e.flatten.length * (D + 1) :=
      Nat.mul_le_mul_left _ (by have := h e (by simp); omega)
    have h2 : leaves (e :: l) = e.flatten.length + leaves l := by simp [leaves]
    rw [h2, Nat.add_mul, List.length_cons]
    omega

theorem sum_nodes_le (l : List CoinEntry) : (l.map CoinEntry.nodes).sum ≤ 2 * leaves l := by
  induction l with
  | nil => simp
  | cons e l ih =>
    have h2 : leaves (e :: l) = e.flatten.length + leaves l := by simp [leaves]
    have := e.nodes_eq
    simp only [List.map_cons, List.sum_cons, h2]
    omega

theorem mergePairsC_runs (l : List CoinEntry) :
    RunsIn (mergePairsC l) (mergePairs l) (l.length + (l.map CoinEntry.nodes).sum) := by
  fun_induction mergePairs l with
  | case1 a b rest ih =>
    rw [mergePairsC]
    refine RunsIn.mono (A := (1 + a.nodes + b.nodes) + ((rest.length + (rest.map CoinEntry.nodes).sum) + 0))
      (runs_ticked (runs_bind ih (runs_pure _))) ?_
    simp only [List.length_cons, List.map_cons, List.sum_cons]
    omega
  | case2 l h =>
    rw [mergePairsC]
    · exact (runs_pure _).mono (by omega)
    · exact h

/-- One round: at most `m` coins, at most `m` packages, at most `L` coins in all. -/
theorem packageRoundC_runs (coins : List Coin) (e m L : Nat) (tm : List CoinEntry)
    (hc : (coins.filter fun c => c.exponent = e).length ≤ m) (ht : tm.length ≤ m)
    (hL : (coins.filter fun c => c.exponent = e).length + leaves tm ≤ L) :
    RunsIn (packageRoundC coins e tm) (stableSort CoinEntry.le (coinsAt coins e ++ tm),
      mergePairs (stableSort CoinEntry.le (coinsAt coins e ++ tm))) (5 * (m * m) + 7 * m + 1 + 4 * L) := by
  have hlen : (coinsAt coins e).length = (coins.filter fun c => c.exponent = e).length := by
    rw [coinsAt, (stableSort_perm _ _).length_eq, List.length_map]
  have h1 : RunsIn (sortC CoinEntry.le ((coins.filter (fun c => c.exponent = e)).map (fun c => CoinEntry.one c.value c)))
      (coinsAt coins e) (m * m) := by
    refine (sortC_runs _ _).mono ?_
    rw [List.length_map]
    exact Nat.mul_le_mul hc hc
  have hs : (coinsAt coins e ++ tm).length ≤ 2 * m := by rw [List.length_append, hlen]; omega
  have hs' : (stableSort CoinEntry.le (coinsAt coins e ++ tm)).length ≤ 2 * m := by
    rw [(stableSort_perm _ _).length_eq]
    exact hs
  have h2 : RunsIn (sortC CoinEntry.le (coinsAt coins e ++ tm)) (stableSort CoinEntry.le (coinsAt coins e ++ tm))
      (4 * (m * m)) := by
    refine (sortC_runs _ _).mono ?_
    have := Nat.mul_le_mul hs hs
    have h4 : 2 * m * (2 * m) = 4 * (m * m) := by ring
    omega
  have hl : leaves (stableSort CoinEntry.le (coinsAt coins e ++ tm)) ≤ L := by
    rw [leaves_perm (stableSort_perm _ _), leaves_append, leaves_coinsAt]
    exact hL
  have hn := sum_nodes_le (stableSort CoinEntry.le (coinsAt coins e ++ tm))
  have h3 := mergePairsC_runs (stableSort CoinEntry.le (coinsAt coins e ++ tm))
  unfold packageRoundC
  refine RunsIn.mono (runs_bind h1 (runs_ticked (runs_bind h2 (runs_ticked (runs_bind h3 (runs_pure _)))))) ?_
  omega

theorem packageLoopC_runs (coins : List Coin) (m L : Nat)
    (hc : ∀ e, (coins.filter fun c => c.exponent = e).length ≤ m) (e : Nat) (tm : List CoinEntry) (ht : tm.length ≤ m)
    (hL : (coins.filter fun c => c.exponent ≤ e).length + leaves tm ≤ L) :
    RunsIn (packageLoopC coins e tm) (packageLoop coins e tm) ((e + 1) * (5 * (m * m) + 7 * m + 1 + 4 * L)) := by
  induction e generalizing tm with
  | zero =>
    rw [packageLoop, packageLoopC]
    refine RunsIn.mono (runs_bind (packageRoundC_runs coins 0 m L tm (hc 0) ht ?_) (runs_pure _)) (by omega)
    simpa using hL
  | succ e ih =>
    rw [packageLoop, packageLoopC]
    have h3 : (coins.filter fun c => c.exponent ≤ e + 1).length
        = (coins.filter fun c => c.exponent ≤ e).length + (coins.filter fun c => c.exponent = e + 1).length := by
      clear * -
      induction coins with
      | nil => rfl
      | cons c cs ih =>
        simp only [List.filter_cons]
        by_cases h1 : c.exponent ≤ e
        · have h2 : c.exponent ≤ e + 1 := by omega
          have h3 : ¬ c.exponent = e + 1 := by omega
          simp [h1, h2, h3, ih]; omega
        · by_cases h3 : c.exponent = e + 1
          · have h2 : c.exponent ≤ e + 1 := by omega
            simp [h1, h2, h3, ih]; omega
          · have h2 : ¬ c.exponent ≤ e + 1 := by omega
            simp [h1, h2, h3, ih]
    have hm := leaves_mergePairs (stableSort CoinEntry.le (coinsAt coins (e + 1) ++ tm))
    rw [leaves_perm (stableSort_perm _ _), leaves_append, leaves_coinsAt] at hm
    have hr := packageRoundC_runs coins (e + 1) m L tm (hc _) ht (by omega)
    have hl := ih (mergePairs (stableSort CoinEntry.le (coinsAt coins (e + 1) ++ tm)))
      (by
        rw [mergePairs_length, (stableSort_perm _ _).length_eq, List.length_append, coinsAt,
          (stableSort_perm _ _).length_eq, List.length_map]
        have := hc (e + 1)
        omega)
      (by omega)
    refine RunsIn.mono (runs_bind hr hl) ?_
    rw [Nat.succ_mul (e + 1)]
    omega

theorem allCoins_length (weights : List Nat) (limit : Nat) : (allCoins weights limit).length = limit * weights.length := by
  unfold allCoins
  induction limit with
  | zero => simp
  | succ n ih => rw [List.range_succ, List.flatMap_append, List.length_append, ih]; simp [Nat.succ_mul]

theorem packageMergeC_runs (weights : List Nat) (m : Nat) (hm : weights.length = m) (hne : weights ≠ []) :
    RunsIn (packageMergeC (allCoins weights 17)) ((packageLoop (allCoins weights 17) 17 []).map CoinEntry.flatten)
      (90 * (m * m) + 1724 * m + 396) := by
  have hlen : (allCoins weights 17).length = 17 * m := by rw [allCoins_length, hm]
  have hcount : ∀ e, ((allCoins weights 17).filter fun c => c.exponent = e).length ≤ m := by
    intro e
    rw [filter_allCoins]
    split
    · simp [hm]
    · simp
  have hall : ((allCoins weights 17).filter fun c => c.exponent ≤ 17).length ≤ 17 * m := by
    rw [← hlen]
    exact List.length_filter_le _ _
  have hloop := packageLoopC_runs (allCoins weights 17) m (17 * m) hcount 17 [] (by simp) (by simpa [leaves] using hall)
  have hleaves := leaves_packageLoop (allCoins weights 17) 17 []
  have hlv : leaves (packageLoop (allCoins weights 17) 17 []) ≤ 17 * m := by
    simp only [leaves, List.map_nil, List.sum_nil] at hleaves
    exact le_trans hleaves (by simpa using hall)
  have hdepth := packageLoop_depth (allCoins weights 17) 17 1 [] (by omega) (by simp)
  have hsize : (packageLoop (allCoins weights 17) 17 []).length ≤ 17 * m := by
    refine le_trans ?_ hlv
    generalize packageLoop (allCoins weights 17) 17 [] = l
    induction l with
    | nil => simp
    | cons x l ih =>
      have h2 : leaves (x :: l) = x.flatten.length + leaves l := by simp [leaves]
      have := x.nodes_eq
      rw [h2, List.length_cons]
      omega
  have hflat := flattenAllC_runs _ 18 hdepth
  unfold packageMergeC
  rw [max_allCoins weights hne 17 (by omega)]
  refine RunsIn.mono (runs_ticked (runs_bind (runs_lift (Res.ofOption_some _)) (runs_ticked (runs_bind hloop hflat)))) ?_
  rw [hlen]
  have : leaves (packageLoop (allCoins weights 17) 17 []) * (18 + 1) ≤ 17 * m * 19 := Nat.mul_le_mul_right _ hlv
  omega

theorem computeLisC_runs (weights : List Nat) (m : Nat) (hm : weights.length = m) (hne : weights ≠ []) (ls : List Nat)
    (h : computeLis weights 17 = Res.ok ls) : RunsIn (computeLisC weights 17) ls (107 * (m * m) + 1760 * m + 413) := by
  have hpm := packageMergeC_runs weights m hm hne
  have hpos : 1 ≤ m := by rw [← hm]; exact List.length_pos_iff.2 hne
  have hsub : subU weights.length 1 = Res.ok (m - 1) := by
    rw [hm, subU, if_pos hpos]
  have hleaves := leaves_packageLoop (allCoins weights 17) 17 []
  have hlv : leaves (packageLoop (allCoins weights 17) 17 []) ≤ 17 * m := by
    simp only [leaves, List.map_nil, List.sum_nil] at hleaves
    refine le_trans hleaves ?_
    have := List.length_filter_le (fun c : Coin => decide (c.exponent ≤ 17)) (allCoins weights 17)
    rw [allCoins_length, hm] at this
    simpa using this
  have hsol : ((((packageLoop (allCoins weights 17) 17 []).map CoinEntry.flatten).take (m - 1)).flatten).length ≤ 17 * m := by
    refine le_trans ?_ hlv
    rw [List.length_flatten, leaves, List.map_take, List.map_map]
    exact (List.take_sublist _ _).sum_le_sum (by simp)
  have hv : computeLis weights 17 = Res.ok (weights.map (fun w =>
      (((((packageLoop (allCoins weights 17) 17 []).map CoinEntry.flatten).take (m - 1)).flatten).filter
        (fun c => c.value = w)).length)) := by
    unfold computeLis packageMerge
    rw [show ((List.range 17).flatMap fun i => weights.map fun w => (⟨w, i + 1⟩ : Coin)) = allCoins weights 17 from rfl]
    dsimp only
    rw [max_allCoins weights hne 17 (by omega), Res.ofOption_some, Res.ok_bind, Res.pure_eq, Res.ok_bind, hsub, Res.ok_bind]
    rfl
  rw [hv, Res.ok.injEq] at h
  subst h
  unfold computeLisC
  rw [show ((List.range 17).flatMap fun i => weights.map fun w => (⟨w, i + 1⟩ : Coin)) = allCoins weights 17 from rfl]
  refine RunsIn.mono (runs_ticked (runs_bind hpm (runs_bind (runs_lift hsub) (runs_ticked (runs_pure _))))) ?_
  rw [hm]
  have := Nat.mul_le_mul_left m (Nat.add_le_add_left hsol 1)
  have h3 : m * (1 + 17 * m) = m + 17 * (m * m) := by ring
  omega

theorem breakTies_length (o : Option Nat) (l : List (Nat × HSym)) : (breakTies o l).length = l.length := by
  induction l generalizing o with
  | nil => cases o <;> rfl
  | cons x l ih =>
    obtain ⟨f, s⟩ := x
    cases o <;> simp [breakTies, ih]

theorem computeHuffmanC_runs (freqs : List Nat) (m : Nat) (hm : freqs.length + 1 = m) (T : List CodeTableEntry)
    (h : computeHuffman freqs = Res.ok T) : RunsIn (computeHuffmanC freqs) T (108 * (m * m) + 1764 * m + 413) := by
  have hlen : (freqs.zipIdx.map (fun p : Nat × Nat => (p.1, HSym.normal (symbolOfIndex p.2))) ++ [(0, HSym.eob)]).length = m := by
    simpa using hm
  have hs : (sortedFrequencies freqs).length = m := by
    rw [sortedFrequencies, (stableSort_perm _ _).length_eq, hlen]
  have hb : (breakTies none (sortedFrequencies freqs)).length = m := by rw [breakTies_length, hs]
  unfold computeHuffman at h
  dsimp only at h
  obtain ⟨ls, h1, h2⟩ := bind_is_ok.1 h
  simp only [Res.pure_eq, Res.ok.injEq] at h2
  subst h2
  have hl := computeLisC_runs _ m (by rw [List.length_map, hb]) (by
    intro e
    have := congrArg List.length e
    rw [List.length_map, hb, List.length_nil] at this
    omega) ls h1
  have hsort := sortC_runs (fun x y : Nat × HSym => decide (x.1 ≤ y.1))
    (freqs.zipIdx.map (fun p : Nat × Nat => (p.1, HSym.normal (symbolOfIndex p.2))) ++ [(0, HSym.eob)])
  unfold computeHuffmanC
  refine RunsIn.mono (runs_ticked (runs_bind hsort (runs_ticked (runs_bind hl (runs_ticked (runs_pure _)))))) ?_
  have e1 : (stableSort (fun x y : Nat × HSym => decide (x.1 ≤ y.1))
    (freqs.zipIdx.map (fun p : Nat × Nat => (p.1, HSym.normal (symbolOfIndex p.2))) ++ [(0, HSym.eob)])).length = m := hs
  have e2 : (breakTies none (stableSort (fun x y : Nat × HSym => decide (x.1 ≤ y.1))
    (freqs.zipIdx.map (fun p : Nat × Nat => (p.1, HSym.normal (symbolOfIndex p.2))) ++ [(0, HSym.eob)]))).length = m := hb
  rw [hlen, e1, e2]
  omega

/-! ### huffman_internal.rs -/

theorem canonicalLoopC_runs (B : Nat) (last : List Bit) (rest : List CodeTableEntry) (out : List CanonicalEntry)
    (hl : last.length ≤ B) (h : canonicalLoop last rest = Res.ok out) (hB : ∀ e ∈ out, e.code.length ≤ B) :
    RunsIn (canonicalLoopC last rest) out (rest.length * (1 + 5 * B)) := by
  induction rest generalizing last out with
  | nil =>
    simp only [canonicalLoop, Res.ok.injEq] at h
    subst h
    exact (runs_pure _).mono (by omega)
  | cons e rest ih =>
    rw [canonicalLoop] at h
    obtain ⟨u, h1, h2⟩ := bind_is_ok.1 h
    dsimp only at h2
    obtain ⟨more, h3, h4⟩ := bind_is_ok.1 h2
    simp only [Res.pure_eq, Res.ok.injEq] at h4
    subst h4
    have hc : (u ++ List.replicate (e.code - u.length) false).length ≤ B := hB ⟨_, e.symbol⟩ (by simp)
    have hu : u.length ≤ B := by rw [List.length_append] at hc; omega
    have hi : RunsIn (incrementSymbolC last) u (3 * B) :=
      (runs_ticked (runs_bind (runs_lift h1) (runs_ticked (runs_pure _)))).mono (by omega)
    have hr := ih _ more hc h3 fun x hx => hB x (by simp [hx])
    rw [canonicalLoopC]
    refine RunsIn.mono (runs_ticked (runs_bind hi (runs_ticked (runs_bind hr (runs_pure _))))) ?_
    rw [List.length_cons, Nat.add_mul rest.length 1]
    omega

theorem canonicalizeC_runs (B : Nat) (T : List CodeTableEntry) (m : Nat) (hm : T.length = m) (out : List CanonicalEntry)
    (h : canonicalize T = Res.ok out) (hB : ∀ e ∈ out, e.code.length ≤ B) :
    RunsIn (canonicalizeC T) out (2 * (m * m) + 2 * B + m * (1 + 5 * B)) := by
  have hs := sortC_runs CodeTableEntry.le T
  have hlen := (stableSort_perm CodeTableEntry.le T).length_eq
  unfold canonicalize at h
  unfold canonicalizeC
  generalize stableSort CodeTableEntry.le T = S at *
  match S, h with
  | [], h => simp at h
  | first :: rest, h =>
    dsimp only at h
    obtain ⟨more, h1, h2⟩ := bind_is_ok.1 h
    simp only [Res.pure_eq, Res.ok.injEq] at h2
    subst h2
    have hB' : ∀ e ∈ (⟨List.replicate first.code false, first.symbol⟩ : CanonicalEntry) :: more, e.code.length ≤ B := by
      intro e he
      exact hB e ((stableSort_perm _ _).mem_iff.2 he)
    have hf : first.code ≤ B := by have := hB' _ (List.mem_cons_self ..); simpa using this
    have hr := canonicalLoopC_runs B _ rest more (by simpa using hf) h1 fun e he => hB' e (by simp [he])
    have hml : more.length = rest.length := by
      clear * - h1
      generalize List.replicate first.code false = last at h1
      induction rest generalizing last more with
      | nil =>
        simp only [canonicalLoop, Res.ok.injEq] at h1
        subst h1
        rfl
      | cons e rest ih =>
        rw [canonicalLoop] at h1
        obtain ⟨u, h1, h2⟩ := bind_is_ok.1 h1
        dsimp only at h2
        obtain ⟨more', h3, h4⟩ := bind_is_ok.1 h2
        simp only [Res.pure_eq, Res.ok.injEq] at h4
        subst h4
        simp [ih _ _ h3]
    have hfin := sortC_runs (fun x y : CanonicalEntry => decide (x.symbol.rank ≤ y.symbol.rank))
      (⟨List.replicate first.code false, first.symbol⟩ :: more)
    refine RunsIn.mono (runs_bind hs (runs_ticked (runs_bind hr hfin))) ?_
    simp only [List.length_cons, hml, hm] at *
    rw [hlen]
    have : rest.length * (1 + 5 * B) ≤ m * (1 + 5 * B) := Nat.mul_le_mul_right _ (by omega)
    omega

/-- Making the code tables of a block with `n` used bytes. -/
theorem codeTablesC_runs (n : Nat) (hn : 1 ≤ n) (hn2 : n ≤ 256) (freqs : List (List Nat))
    (hf : ∀ f ∈ freqs, f.length = n + 1) (tables : List (List Nat)) (ht : TablesMade n freqs tables) :
    RunsIn (codeTablesC freqs) (tables.map canonTable)
      (freqs.length * (110 * ((n + 2) * (n + 2)) + 1850 * (n + 2) + 448)) := by
  have key : ∀ (freqs : List (List Nat)) (out : List (List CanonicalEntry)), (∀ f ∈ freqs, f.length = n + 1) →
      codeTables freqs = Res.ok out →
      RunsIn (codeTablesC freqs) out (freqs.length * (110 * ((n + 2) * (n + 2)) + 1850 * (n + 2) + 448)) := by
    clear hf ht
    intro freqs
    induction freqs with
    | nil =>
      intro out _ h
      simp only [codeTables, Res.ok.injEq] at h
      subst h
      exact (runs_pure _).mono (by omega)
    | cons f freqs ih =>
      intro out hf h
      rw [codeTables] at h
      obtain ⟨T, h1, h2⟩ := bind_is_ok.1 h
      obtain ⟨c, h3, h4⟩ := bind_is_ok.1 h2
      obtain ⟨more, h5, h6⟩ := bind_is_ok.1 h4
      simp only [Res.pure_eq, Res.ok.injEq] at h6
      subst h6
      obtain ⟨T', ls, g1, g2, g3, g4, -, -⟩ := codeTable_ok n hn hn2 f (hf f (by simp))
      rw [g1, Res.ok.injEq] at h1
      subst h1
      rw [g2, Res.ok.injEq] at h3
      subst h3
      have r1 := computeHuffmanC_runs f (n + 2) (by rw [hf f (by simp)]) T' g1
      have hB : ∀ e ∈ canonTable ls, e.code.length ≤ 17 := by
        intro e he
        unfold canonTable at he
        obtain ⟨i, hi, rfl⟩ := List.mem_map.1 he
        have hi : i < ls.length := List.mem_range.1 hi
        simp only [codeBits_length]
        rw [len, List.getD_eq_getElem?_getD, List.getElem?_eq_getElem hi, Option.getD_some]
        exact g4.1 _ (List.getElem_mem hi)
      have hT : T'.length = n + 2 := by
        obtain ⟨T2, ws, k1, k2, -⟩ := computeHuffman_spec f (by rw [hf f (by simp)]; omega) (by rw [hf f (by simp)]; omega)
        rw [g1, Res.ok.injEq] at k1
        subst k1
        have := k2.length_eq
        simp [hf f (by simp)] at this
        exact this
      have r2 := canonicalizeC_runs 17 T' (n + 2) hT _ g2 hB
      have r3 := ih more (fun x hx => hf x (by simp [hx])) h5
      rw [codeTablesC]
      refine RunsIn.mono (runs_ticked (runs_bind r1 (runs_bind r2 (runs_bind r3 (runs_pure _))))) ?_
      rw [List.length_cons, Nat.add_mul freqs.length 1]
      omega
  exact key freqs _ hf ht.made

end Ribzip2
