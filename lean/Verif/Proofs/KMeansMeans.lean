import Verif.Proofs.KMeans
/- The centres are the means of their clusters, up to rounding; the clustering is Lloyd's algorithm. -/
namespace Ribzip2
open Spec

theorem meanAt_snoc (P : List (List ℕ)) (p : List ℕ) (i : ℕ) :
    meanAt (P ++ [p]) i = (meanAt P i * P.length + (p.getD i 0 : ℕ)) / (P.length + 1) := by
  unfold meanAt
  have h : ((P.length : ℚ) + 1) ≠ 0 := by positivity
  cases P with
  | nil => simp
  | cons a P =>
    have h2 : (((a :: P).length : ℕ) : ℚ) ≠ 0 := by simp; positivity
    rw [div_mul_cancel₀ _ h2]
    simp [List.sum_append, add_assoc]
    norm_num

theorem meanAt_nonneg (P : List (List ℕ)) (i : ℕ) : 0 ≤ meanAt P i := by
  unfold meanAt; positivity

theorem updateEntry_close (x m : ℚ) (k p : ℕ) (hk : k + 1 < 2 ^ 24) (hp : p < 2 ^ 24) (h : Close (3 * k) x m) :
    Close (3 * (k + 1)) (f32Div (f32Add (f32Mul x (f32OfNat k)) (f32OfNat p)) (f32Add (f32OfNat k) 1))
      ((m * k + p) / (k + 1)) := by
  rw [f32OfNat_exact k (by omega), f32OfNat_exact p hp]
  have hk1 : f32Add (k : ℚ) 1 = k + 1 := by
    have := f32Round_nat (k + 1) hk
    push_cast at this
    exact this
  rw [hk1]
  have hk0 : (0 : ℚ) ≤ k := by positivity
  have h1 := h.scale (k : ℚ) hk0
  have h2 := (close_round _ h1.1).trans h1
  have h3 := h2.add ((Close.refl (show (0 : ℚ) ≤ p by positivity)).mono (Nat.zero_le (1 + 3 * k)))
  have h4 := (close_round _ h3.1).trans h3
  have h5 := h4.scale (1 / ((k : ℚ) + 1)) (by positivity)
  have h6 := (close_round _ h5.1).trans h5
  rw [show 1 + (1 + (1 + 3 * k)) = 3 * (k + 1) by ring] at h6
  rw [mul_one_div, mul_one_div] at h6
  exact h6

/-- The points of a list of assigned points that are assigned to `j`. -/
def assignedTo (l : List (List ℕ × UInt8)) (j : ℕ) : List (List ℕ) :=
  (l.filter fun x => x.2.toNat == j).map Prod.fst

theorem updateCenter_get (c : List ℚ) (k : ℕ) (p : List ℕ) (h : c.length = p.length) (i : ℕ) :
    (updateCenter c k p)[i]? = c[i]?.map fun x =>
      f32Div (f32Add (f32Mul x (f32OfNat k)) (f32OfNat (p.getD i 0))) (f32Add (f32OfNat k) 1) := by
  unfold updateCenter
  rw [← h, List.drop_length, List.append_nil, List.getElem?_map]
  by_cases hi : i < c.length
  · have hi2 : i < p.length := by omega
    simp [hi, hi2]
  · simp [hi]

theorem updateLoop_means (d nc : ℕ) (l : List (List ℕ × UInt8))
    (hl : ∀ x ∈ l, x.1.length = d ∧ x.2.toNat < nc ∧ ∀ y ∈ x.1, y < 2 ^ 24) (centers : List (List ℚ))
    (hc : centers.length = nc) (hd : ∀ c ∈ centers, c.length = d) (sizes : List ℕ) (hs : sizes.length = nc)
    (pts : ℕ → List (List ℕ)) (hsz : ∀ j s, sizes[j]? = some s → s = (pts j).length)
    (hbound : ∀ j, (pts j).length + l.length < 2 ^ 24)
    (hcl : ∀ j c, centers[j]? = some c → ∀ i x, c[i]? = some x → Close (3 * (pts j).length) x (meanAt (pts j) i))
    (out : List (List ℚ)) (h : updateLoop l centers sizes = Res.ok out) :
    ∀ j c, out[j]? = some c → ∀ i x, c[i]? = some x →
      Close (3 * (pts j ++ assignedTo l j).length) x (meanAt (pts j ++ assignedTo l j) i) := by
  induction l generalizing centers sizes pts with
  | nil =>
    simp only [updateLoop, Res.ok.injEq] at h
    subst h
    simpa [assignedTo] using hcl
  | cons x l ih =>
    obtain ⟨point, a⟩ := x
    obtain ⟨h1, h2, h3⟩ := hl _ (List.mem_cons_self ..)
    simp only at h1 h2 h3
    have g1 : a.toNat < centers.length := by omega
    have g2 : a.toNat < sizes.length := by omega
    have h5 := hd _ (List.getElem_mem g1)
    simp only [updateLoop, idx, List.getElem?_eq_getElem g1, List.getElem?_eq_getElem g2, Res.ofOption_some,
      Res.ok_bind, setIdx, if_pos g1, if_pos g2] at h
    have hsa := hsz a.toNat _ (List.getElem?_eq_getElem g2)
    have hb := hbound a.toNat
    simp only [List.length_cons] at hb
    obtain ⟨pts', hpts'⟩ : ∃ pts' : ℕ → List (List ℕ),
        pts' = fun j => if j = a.toNat then pts j ++ [point] else pts j := ⟨_, rfl⟩
    have hall : ∀ j, pts' j ++ assignedTo l j = pts j ++ assignedTo ((point, a) :: l) j := by
      intro j
      rw [hpts']
      by_cases hj : j = a.toNat
      · subst hj; simp [assignedTo]
      · have : (a.toNat == j) = false := by simp; exact fun e => hj e.symm
        simp [assignedTo, hj, this]
    have key := ih (fun x hx => hl x (by simp [hx]))
      (centers.set a.toNat (updateCenter centers[a.toNat] sizes[a.toNat] point)) (by simpa using hc)
      (by
        intro c hc
        rcases List.mem_or_eq_of_mem_set hc with h | h
        · exact hd c h
        · rw [h, updateCenter_length _ _ _ (by omega), h5])
      (sizes.set a.toNat (sizes[a.toNat] + 1)) (by simpa using hs) pts'
      (by
        intro j s hj
        rw [hpts']
        by_cases hja : j = a.toNat
        · subst hja
          rw [List.getElem?_set_self g2, Option.some.injEq] at hj
          simp [← hj, hsa]
        · rw [List.getElem?_set_ne (Ne.symm hja)] at hj
          simp [hja, hsz j s hj])
      (by
        intro j
        have := hbound j
        simp only [List.length_cons] at this
        rw [hpts']
        by_cases hja : j = a.toNat
        · simp [hja]; rw [hja] at this; omega
        · simp [hja]; omega)
      (by
        intro j c hj i x hx
        rw [hpts']
        by_cases hja : j = a.toNat
        · subst hja
          rw [List.getElem?_set_self g1, Option.some.injEq] at hj
          subst hj
          rw [updateCenter_get _ _ _ (by omega)] at hx
          obtain ⟨x0, hx0, rfl⟩ := Option.map_eq_some_iff.1 hx
          simp only [if_true]
          have := hcl a.toNat _ (List.getElem?_eq_getElem g1) i x0 hx0
          rw [meanAt_snoc, List.length_append, List.length_singleton, hsa]
          refine updateEntry_close _ _ _ _ (by omega) ?_ this
          have hi : i < point.length := by
            have := (List.getElem?_eq_some_iff.1 hx0).1
            omega
          rw [List.getD_eq_getElem?_getD, List.getElem?_eq_getElem hi, Option.getD_some]
          exact h3 _ (List.getElem_mem hi)
        · rw [List.getElem?_set_ne (Ne.symm hja)] at hj
          simp only [if_neg hja]
          exact hcl j c hj i x hx) h
    intro j c hj i x hx
    rw [← hall j]
    exact key j c hj i x hx

theorem cluster_assignedTo (data : List (List ℕ)) (a : List UInt8) (j : ℕ) :
    cluster data (a.map UInt8.toNat) j = assignedTo (data.zip a) j := by
  unfold cluster assignedTo
  induction data generalizing a with
  | nil => simp
  | cons p data ih =>
    cases a with
    | nil => simp
    | cons x a =>
      simp only [List.map_cons, List.zip_cons_cons, List.filter_cons]
      by_cases h : x.toNat = j
      · simp [h, ih a]
      · simp [h, ih a]

/-- **Update.** After the update the centres are the means of their clusters, up to rounding. -/
theorem updateLoop_meansUpTo (d nc : ℕ) (data : List (List ℕ)) (a : List UInt8) (ha : a.length = data.length)
    (hdata : ∀ p ∈ data, p.length = d ∧ ∀ y ∈ p, y < 2 ^ 24) (hlen : data.length ≤ 25000)
    (ha2 : ∀ x ∈ a, x.toNat < nc) (centers : List (List ℚ)) (hc : centers.length = nc) :
    ∃ out, updateLoop (data.zip a) (centers.map fun _ => List.replicate d (0 : ℚ)) (List.replicate nc 0) = Res.ok out ∧
      out.length = nc ∧ (∀ c ∈ out, c.length = d) ∧ MeansUpTo (1 / 100) d nc data (a.map UInt8.toNat) out := by
  obtain ⟨out, k1, k2, k3⟩ := updateLoop_ok d nc (data.zip a)
    (fun x hx => ⟨(hdata _ (List.of_mem_zip hx).1).1, ha2 _ (List.of_mem_zip hx).2⟩)
    (centers.map fun _ => List.replicate d (0 : Rat)) (by simpa using hc)
    (by
      intro c hc
      obtain ⟨x, -, rfl⟩ := List.mem_map.1 hc
      simp)
    (List.replicate nc 0) (by simp)
  refine ⟨out, k1, k2, k3, k2, ?_⟩
  intro j c hj
  refine ⟨k3 c (List.mem_of_getElem? hj), ?_⟩
  intro i x hx
  have := updateLoop_means d nc (data.zip a)
    (fun x hx => ⟨(hdata _ (List.of_mem_zip hx).1).1, ha2 _ (List.of_mem_zip hx).2, (hdata _ (List.of_mem_zip hx).1).2⟩)
    (centers.map fun _ => List.replicate d (0 : Rat)) (by simpa using hc)
    (by
      intro c hc
      obtain ⟨x, -, rfl⟩ := List.mem_map.1 hc
      simp)
    (List.replicate nc 0) (by simp) (fun _ => [])
    (by
      intro j s hs
      simp only [List.getElem?_replicate] at hs
      split at hs <;> simp_all)
    (by intro j; simp; omega)
    (by
      intro j c hj i x hx
      simp only [List.getElem?_map, Option.map_eq_some_iff] at hj
      obtain ⟨_, -, rfl⟩ := hj
      simp only [List.getElem?_replicate] at hx
      split at hx
      · simp only [Option.some.injEq] at hx
        subst hx
        simp [Close, meanAt]
      · simp at hx) out k1 j c hj i x hx
  rw [List.nil_append, ← cluster_assignedTo] at this
  refine this.abs (by norm_num) ?_
  refine gfac_bound _ 75000 _ ?_ (by norm_num) (by norm_num)
  have hcl : (cluster data (a.map UInt8.toNat) j).length ≤ data.length := by
    unfold cluster
    rw [List.length_map]
    refine (List.length_filter_le _ _).trans ?_
    simp
  omega

/-- The clustering is Lloyd's algorithm. -/
theorem lloyd_rounds (d nc : ℕ) (hnc : 1 ≤ nc) (h256 : nc ≤ 256) (hd : d ≤ 400) (data : List (List ℕ))
    (hdata : ∀ p ∈ data, p.length = d ∧ ∀ y ∈ p, y < 2 ^ 24) (hlen : data.length ≤ 25000)
    (start : List (List ℚ)) (it m : ℕ) (centers : List (List ℚ)) (hc : centers.length = nc)
    (hcd : ∀ c ∈ centers, c.length = d) (a0 : List UInt8)
    (hL : m = 0 ∧ centers = start ∨ Lloyd (1 / 10000) (1 / 100) d nc data start m centers (a0.map UInt8.toNat))
    (c : List (List ℚ)) (a : List UInt8) (h : lloyd euclid d nc data it centers a0 = Res.ok (c, a)) (hit : 1 ≤ m + it) :
    Lloyd (1 / 10000) (1 / 100) d nc data start (m + it) c (a.map UInt8.toNat) := by
  induction it generalizing m centers a0 with
  | zero =>
    simp only [lloyd, Res.ok.injEq, Prod.mk.injEq] at h
    obtain ⟨rfl, rfl⟩ := h
    rcases hL with ⟨h, -⟩ | h
    · omega
    · exact h
  | succ it ih =>
    obtain ⟨h1, h2⟩ := assignAll_ok euclid data centers nc hnc hc
    have hne : centers ≠ [] := by rintro rfl; simp at hc; omega
    have hN := assignAll_nearest data centers d hd (fun p hp => (hdata p hp).2) hcd hne (by omega)
    obtain ⟨out, k1, k2, k3, k4⟩ := updateLoop_meansUpTo d nc data (assignAll euclid data centers) h1 hdata hlen h2
      centers hc
    simp only [lloyd, k1, Res.ok_bind] at h
    have := ih (m + 1) out k2 k3 (assignAll euclid data centers) (Or.inr ?_) h (by omega)
    · rw [show m + (it + 1) = m + 1 + it by omega]; exact this
    · rcases hL with ⟨rfl, rfl⟩ | hL
      · exact Lloyd.first hN k4
      · exact Lloyd.next hL hN k4

theorem initialCenters_eq (data : List (List ℕ)) (nc : ℕ) (hne : data ≠ []) (hdata : ∀ p ∈ data, ∀ y ∈ p, y < 2 ^ 24)
    (k : ℕ) (hk : k ≤ nc) :
    initialCenters data nc k = Res.ok ((List.range k).map fun j => (data.getD (j * data.length / nc) []).map Nat.cast) := by
  induction k with
  | zero => rfl
  | succ k ih =>
    have hpos : 0 < data.length := List.length_pos_iff.2 hne
    have hlt : k * data.length / nc < data.length := by
      apply Nat.div_lt_of_lt_mul
      exact (Nat.mul_lt_mul_right hpos).2 (by omega)
    simp only [initialCenters, ih (by omega), Res.ok_bind, idx, List.getElem?_eq_getElem hlt, Res.ofOption_some]
    rw [List.range_succ, List.map_append, List.map_singleton, List.getD_eq_getElem?_getD, List.getElem?_eq_getElem hlt,
      Option.getD_some]
    have : data[k * data.length / nc].map f32OfNat = data[k * data.length / nc].map (Nat.cast : ℕ → ℚ) := by
      refine List.map_congr_left ?_
      intro y hy
      exact f32OfNat_exact y (hdata _ (List.getElem_mem hlt) y hy)
    rw [this]
    rfl

theorem table_close (x : ℚ) (hx : 0 ≤ x) (h : x < 2 ^ 9) : |(((f32Mul x 10000).floor.toNat : ℕ) : ℚ) - 10000 * x| ≤ 2 := by
  have h1 := f32Round_rel (x * 10000) (by linarith)
  have h0 := f32Round_nonneg (x * 10000)
  have h2 : (((f32Mul x 10000).floor.toNat : ℕ) : ℚ) = (((f32Mul x 10000).floor : ℤ) : ℚ) := by
    have : (((f32Mul x 10000).floor.toNat : ℕ) : ℤ) = (f32Mul x 10000).floor :=
      Int.toNat_of_nonneg (Int.floor_nonneg.2 h0)
    exact_mod_cast this
  rw [h2]
  have h3 : (((f32Mul x 10000).floor : ℤ) : ℚ) ≤ f32Mul x 10000 := Int.floor_le _
  have h4 : f32Mul x 10000 < (((f32Mul x 10000).floor : ℤ) : ℚ) + 1 := Int.lt_floor_add_one _
  have h5 : f32Mul x 10000 = f32Round (x * 10000) := rfl
  rw [← h5, abs_le] at h1
  rw [abs_le]
  have h6 : x * 10000 / 2 ^ 24 ≤ 1 := by
    rw [div_le_one (by positivity)]; linarith
  constructor <;> linarith

end Ribzip2
