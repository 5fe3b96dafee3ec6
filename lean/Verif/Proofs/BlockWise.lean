import Verif.Proofs.RoundTrip
import Mathlib.Tactic.Positivity
import Mathlib.Tactic.Linarith
/- The statistics of the block-wise strategy (k-means), and the blocks written with it. -/
namespace Ribzip2
open Spec

/-! ### Reporting symbols -/

/-- What holds of the block-wise statistics after `k` symbols of a block with `n` used bytes. -/
structure BlockWiseMap.Ok (n k : Nat) (s : BlockWiseMap) : Prop where
  size : s.size = n
  current : s.current.length = n + 1
  small : ∀ c ∈ s.current, c ≤ s.counter
  maps : ∀ m ∈ s.maps, m.length = n + 1
  count : 50 * s.maps.length + s.counter = k
  lt : s.counter < 50

theorem BlockWiseMap.ok_create (n : Nat) : (BlockWiseMap.create n).Ok n 0 := by
  refine ⟨rfl, by simp [create], ?_, by simp [create], by simp [create], by simp [create]⟩
  intro c hc
  simp only [create] at hc
  rw [List.eq_of_mem_replicate hc]
  exact Nat.zero_le _

theorem BlockWiseMap.report_ok (n k : Nat) (s : BlockWiseMap) (h : s.Ok n k) (sym : ZleSymbol)
    (hs : symbolIndex sym ≤ n) : ∃ s', s.report sym = Res.ok s' ∧ s'.Ok n (k + 1) := by
  have hlt : symbolIndex sym < s.current.length := by rw [h.current]; omega
  have hc : s.current[symbolIndex sym] ≤ s.counter := h.small _ (List.getElem_mem hlt)
  have hl := h.lt
  have hcount := h.count
  simp only [report, idx, List.getElem?_eq_getElem hlt, Res.ofOption_some, Res.ok_bind]
  rw [if_pos (show s.current[symbolIndex sym] + 1 < 256 by omega)]
  simp only [Res.ok_bind, setIdx, if_pos hlt]
  split
  · refine ⟨_, rfl, h.size, by simp [h.size], ?_, ?_, ?_, by simp⟩
    · intro c hc
      rw [List.eq_of_mem_replicate hc]
    · intro m hm
      rcases List.mem_append.1 hm with hm | hm
      · exact h.maps m hm
      · simp at hm; subst hm; simpa using h.current
    · simp; omega
  · refine ⟨_, rfl, h.size, by simpa using h.current, ?_, h.maps, by simp only; omega, by simp only; omega⟩
    intro c hc'
    rcases List.mem_or_eq_of_mem_set hc' with h' | h'
    · have := h.small c h'; simp only; omega
    · subst h'; simp only; omega

theorem blockWise_reportAll (dist : Distance) (nc it n k : Nat) (syms : List ZleSymbol)
    (hs : ∀ s ∈ syms, symbolIndex s ≤ n) (m : BlockWiseMap) (hm : m.Ok n k) :
    ∃ m', reportAll (blockWiseReporter dist nc it) m syms = Res.ok m' ∧ m'.Ok n (k + syms.length) := by
  induction syms generalizing m k with
  | nil => exact ⟨m, rfl, hm⟩
  | cons s syms ih =>
    obtain ⟨m1, h1, h2⟩ := m.report_ok n k hm s (hs s (by simp))
    obtain ⟨m2, h3, h4⟩ := ih (k + 1) (fun x hx => hs x (by simp [hx])) m1 h2
    refine ⟨m2, ?_, by rw [List.length_cons, show k + (syms.length + 1) = k + 1 + syms.length by omega]; exact h4⟩
    simp only [reportAll, blockWiseReporter, h1, Res.ok_bind]
    exact h3

/-! ### Clustering -/

theorem initialCenters_ok (data : List (List Nat)) (d nc : Nat) (hdata : ∀ p ∈ data, p.length = d)
    (hne : data ≠ []) (k : Nat) (hk : k ≤ nc) :
    ∃ c, initialCenters data nc k = Res.ok c ∧ c.length = k ∧ ∀ p ∈ c, p.length = d := by
  induction k with
  | zero => exact ⟨[], rfl, rfl, by simp⟩
  | succ k ih =>
    obtain ⟨c, h1, h2, h3⟩ := ih (by omega)
    have hpos : 0 < data.length := List.length_pos_iff.2 hne
    have hlt : k * data.length / nc < data.length := by
      apply Nat.div_lt_of_lt_mul
      exact (Nat.mul_lt_mul_right hpos).2 (by omega)
    refine ⟨c ++ [data[k * data.length / nc].map f32OfNat], ?_, by simp [h2], ?_⟩
    · simp only [initialCenters, h1, Res.ok_bind, idx, List.getElem?_eq_getElem hlt, Res.ofOption_some]
      rfl
    · intro p hp
      rcases List.mem_append.1 hp with hp | hp
      · exact h3 p hp
      · simp only [List.mem_singleton] at hp
        subst hp
        simpa using hdata _ (List.getElem_mem hlt)

theorem nearestLoop_lt (dist : Distance) (point : List Nat) (centers : List (List Rat)) (i : Nat)
    (m : Option Rat) (a : Nat) (n : Nat) (hi : i + centers.length ≤ n) (ha : a < n) :
    nearestLoop dist point centers i m a < n := by
  induction centers generalizing i m a with
  | nil => exact ha
  | cons c centers ih =>
    simp only [List.length_cons] at hi
    unfold nearestLoop
    split
    · dsimp only
      split
      · exact ih _ _ _ (by omega) (by omega)
      · exact ih _ _ _ (by omega) ha
    · exact ih _ _ _ (by omega) (by omega)

theorem updateCenter_length (c : List Rat) (k : Nat) (p : List Nat) (h : p.length ≤ c.length) :
    (updateCenter c k p).length = c.length := by
  simp [updateCenter]
  omega

theorem updateLoop_ok (d nc : Nat) (l : List (List Nat × UInt8)) (hl : ∀ x ∈ l, x.1.length = d ∧ x.2.toNat < nc)
    (centers : List (List Rat)) (hc : centers.length = nc) (hd : ∀ c ∈ centers, c.length = d)
    (sizes : List Nat) (hs : sizes.length = nc) :
    ∃ c, updateLoop l centers sizes = Res.ok c ∧ c.length = nc ∧ ∀ p ∈ c, p.length = d := by
  induction l generalizing centers sizes with
  | nil => exact ⟨centers, rfl, hc, hd⟩
  | cons x l ih =>
    obtain ⟨point, a⟩ := x
    obtain ⟨h1, h2⟩ := hl _ (List.mem_cons_self ..)
    simp only at h1 h2
    have h3 : a.toNat < centers.length := by omega
    have h4 : a.toNat < sizes.length := by omega
    have h5 := hd _ (List.getElem_mem h3)
    obtain ⟨c, k1, k2, k3⟩ := ih (fun x hx => hl x (by simp [hx]))
      (centers.set a.toNat (updateCenter centers[a.toNat] sizes[a.toNat] point)) (by simpa using hc)
      (by
        intro c hc
        rcases List.mem_or_eq_of_mem_set hc with h | h
        · exact hd c h
        · rw [h, updateCenter_length _ _ _ (by omega), h5])
      (sizes.set a.toNat (sizes[a.toNat] + 1)) (by simpa using hs)
    refine ⟨c, ?_, k2, k3⟩
    simp only [updateLoop, idx, List.getElem?_eq_getElem h3, List.getElem?_eq_getElem h4, Res.ofOption_some,
      Res.ok_bind, setIdx, if_pos h3, if_pos h4]
    exact k1

theorem assignAll_ok (dist : Distance) (data : List (List Nat)) (centers : List (List Rat)) (nc : Nat) (hnc : 1 ≤ nc)
    (hc : centers.length = nc) :
    (assignAll dist data centers).length = data.length ∧ ∀ a ∈ assignAll dist data centers, a.toNat < nc := by
  refine ⟨by simp [assignAll], ?_⟩
  intro a ha
  obtain ⟨p, -, rfl⟩ := List.mem_map.1 ha
  have := nearestLoop_lt dist p centers 0 none 0 nc (by omega) (by omega)
  rw [UInt8.toNat_ofNat']
  exact lt_of_le_of_lt (Nat.mod_le _ _) this

theorem lloyd_ok (dist : Distance) (d nc : Nat) (hnc : 1 ≤ nc) (data : List (List Nat))
    (hdata : ∀ p ∈ data, p.length = d) (it : Nat) (centers : List (List Rat)) (hc : centers.length = nc)
    (hd : ∀ c ∈ centers, c.length = d) (a : List UInt8) (ha : a.length = data.length)
    (ha2 : ∀ x ∈ a, x.toNat < nc) :
    ∃ c a', lloyd dist d nc data it centers a = Res.ok (c, a') ∧ c.length = nc ∧ (∀ p ∈ c, p.length = d) ∧
      a'.length = data.length ∧ ∀ x ∈ a', x.toNat < nc := by
  induction it generalizing centers a with
  | zero => exact ⟨centers, a, rfl, hc, hd, ha, ha2⟩
  | succ it ih =>
    obtain ⟨h1, h2⟩ := assignAll_ok dist data centers nc hnc hc
    obtain ⟨c, k1, k2, k3⟩ := updateLoop_ok d nc (data.zip (assignAll dist data centers))
      (fun x hx => ⟨hdata _ (List.of_mem_zip hx).1, h2 _ (List.of_mem_zip hx).2⟩)
      (centers.map fun _ => List.replicate d (0 : Rat)) (by simpa using hc)
      (by
        intro c hc
        obtain ⟨x, -, rfl⟩ := List.mem_map.1 hc
        simp)
      (List.replicate nc 0) (by simp)
    obtain ⟨c', a', g⟩ := ih c k2 k3 _ h1 h2
    refine ⟨c', a', ?_, g.2⟩
    simp only [lloyd, k1, Res.ok_bind]
    exact g.1

/-- The clustering never fails for at least one cluster; it gives every point one of the clusters. -/
theorem kmeansSolve_ok (dist : Distance) (d nc it : Nat) (hnc : 1 ≤ nc) (data : List (List Nat))
    (hne : data ≠ []) (hdata : ∀ p ∈ data, p.length = d) :
    ∃ means sel, kmeansSolve dist d data it nc = Res.ok (means, sel) ∧ means.length = nc ∧
      (∀ m ∈ means, m.length = d) ∧ sel.length = data.length ∧ (∀ s ∈ sel, s.toNat < nc) ∧
      (it = 0 → sel = List.replicate data.length 0) := by
  obtain ⟨c, h1, h2, h3⟩ := initialCenters_ok data d nc hdata hne nc (Nat.le_refl _)
  obtain ⟨c', a, k1, k2, k3, k4, k5⟩ := lloyd_ok dist d nc hnc data hdata it c h2 h3
    (List.replicate data.length 0) (by simp)
    (fun x hx => by rw [List.eq_of_mem_replicate hx]; exact hnc)
  refine ⟨c'.map fun c => c.map fun x => (f32Mul x 10000).floor.toNat, a, ?_, by simpa using k2, ?_, k4, k5, ?_⟩
  · simp only [kmeansSolve, h1, Res.ok_bind, k1]
    rfl
  · intro m hm
    obtain ⟨x, hx, rfl⟩ := List.mem_map.1 hm
    simpa using k3 x hx
  · rintro rfl
    simp only [lloyd, Res.ok.injEq, Prod.mk.injEq] at k1
    exact k1.2.symm

/-! ### The distance of the program, one group -/

theorem pow2_pos (e : Int) : 0 < pow2 e := by
  rw [pow2_eq]
  positivity

theorem roundHalfEven_nonneg (q : ℚ) (h : 0 ≤ q) : 0 ≤ roundHalfEven q := by
  have := roundHalfEven_err q
  rw [abs_le] at this
  by_contra hc
  have h1 : roundHalfEven q ≤ -1 := by omega
  have h2 : (roundHalfEven q : ℚ) ≤ -1 := by exact_mod_cast h1
  linarith [this.1]

theorem f32Round_nonneg (q : ℚ) : 0 ≤ f32Round q := by
  unfold f32Round
  split
  · exact le_refl _
  · rename_i h
    have hp := pow2_pos (ilog2 q - 23)
    have : 0 ≤ roundHalfEven (q / pow2 (ilog2 q - 23)) :=
      roundHalfEven_nonneg _ (div_nonneg (le_of_lt (not_le.1 h)) (le_of_lt hp))
    exact mul_nonneg (by exact_mod_cast this) (le_of_lt hp)

theorem f32Round_zero : f32Round 0 = 0 := by simp [f32Round]

theorem euclid_nonneg (c : List Rat) (p : List Nat) : 0 ≤ euclid c p := by
  unfold euclid f32Sqrt
  dsimp only
  split
  · exact le_refl _
  · exact f32Round_nonneg _

theorem euclid_self (p : List Nat) : euclid (p.map f32OfNat) p = 0 := by
  have h : ∀ (p : List Nat), (((p.map f32OfNat).zip p).map fun q =>
      let d := f32Round (if q.1 < f32OfNat q.2 then f32OfNat q.2 - q.1 else q.1 - f32OfNat q.2)
      f32Mul d d) = p.map fun _ => 0 := by
    intro p
    induction p with
    | nil => rfl
    | cons x p ih =>
      rw [List.map_cons, List.zip_cons_cons, List.map_cons, ih, List.map_cons]
      congr 1
      simp [f32Round_zero, f32Mul]
  have h2 : ∀ (p : List Nat), (p.map fun _ => (0 : Rat)).foldl f32Add 0 = 0 := by
    intro p
    induction p with
    | nil => rfl
    | cons x p ih =>
      rw [List.map_cons, List.foldl_cons, show f32Add 0 0 = 0 by simp [f32Add, f32Round_zero]]
      exact ih
  unfold euclid
  rw [h, h2]
  simp [f32Sqrt]

theorem f32OfNat_exact (n : Nat) (h : n < 2 ^ 24) : f32OfNat n = n := by
  unfold f32OfNat
  rcases Nat.eq_zero_or_pos n with rfl | hn
  · simp [f32Round_zero]
  · exact f32Round_exact (n : ℚ) (by exact_mod_cast hn) (n : Int) (by simp) (by exact_mod_cast h)

theorem f32Round_nat (n : Nat) (h : n < 2 ^ 24) : f32Round (n : ℚ) = n := f32OfNat_exact n h

theorem updateCenter_first (d : Nat) (p : List Nat) (hd : p.length = d) (hp : ∀ x ∈ p, x < 2 ^ 24) :
    updateCenter (List.replicate d 0) 0 p = p.map f32OfNat := by
  subst hd
  unfold updateCenter
  rw [List.drop_of_length_le (by simp), List.append_nil]
  induction p with
  | nil => rfl
  | cons x p ih =>
    rw [List.length_cons, List.replicate_succ, List.zip_cons_cons, List.map_cons,
      ih (fun y hy => hp y (by simp [hy])), List.map_cons]
    congr 1
    have hx := hp x (by simp)
    have h0 : f32OfNat 0 = 0 := by simp [f32OfNat, f32Round_zero]
    have h1 : f32Round 1 = 1 := by simpa using f32Round_nat 1 (by omega)
    simp [f32Div, f32Add, f32Mul, h0, f32Round_zero, h1, f32OfNat_exact x hx, f32Round_nat x hx]

theorem nearestLoop_keep (dist : Distance) (hd : ∀ c p, 0 ≤ dist c p) (point : List Nat) (cs : List (List Rat))
    (i a : Nat) : nearestLoop dist point cs i (some 0) a = a := by
  induction cs generalizing i with
  | nil => rfl
  | cons c cs ih =>
    unfold nearestLoop
    dsimp only
    rw [if_neg (not_lt.2 (hd c point))]
    exact ih _

theorem lloyd_one (d nc : Nat) (p : List Nat) (hd : p.length = d) (hp : ∀ x ∈ p, x < 2 ^ 24) (it : Nat)
    (rest : List (List Rat)) (hn : nc = rest.length + 1) (c' : List (List Rat)) (a' : List UInt8)
    (h : lloyd euclid d nc [p] it (p.map f32OfNat :: rest) [0] = Res.ok (c', a')) : a' = [0] := by
  induction it generalizing rest with
  | zero =>
    simp only [lloyd, Res.ok.injEq, Prod.mk.injEq] at h
    exact h.2.symm
  | succ it ih =>
    have h1 : assignAll euclid [p] (p.map f32OfNat :: rest) = [0] := by
      simp only [assignAll, List.map_cons, List.map_nil]
      unfold nearestLoop
      dsimp only
      rw [euclid_self, nearestLoop_keep euclid euclid_nonneg]
      rfl
    have h2 : updateLoop ([p].zip [0]) ((p.map f32OfNat :: rest).map fun _ => List.replicate d (0 : Rat))
        (List.replicate nc 0) = Res.ok (p.map f32OfNat :: rest.map fun _ => List.replicate d (0 : Rat)) := by
      subst hn
      simp [updateLoop, idx, setIdx, List.replicate_succ, updateCenter_first d p hd hp]
    simp only [lloyd, h1, h2, Res.ok_bind] at h
    exact ih _ (by simpa using hn) h

theorem kmeans_one (d nc it : Nat) (hnc : 1 ≤ nc) (p : List Nat) (hd : p.length = d) (hp : ∀ x ∈ p, x < 2 ^ 24)
    (means : List (List Nat)) (sel : List UInt8) (h : kmeansSolve euclid d [p] it nc = Res.ok (means, sel)) :
    sel = [0] := by
  have hinit : ∀ k, k ≤ nc → ∃ c, initialCenters [p] nc k = Res.ok c ∧ c.length = k ∧ ∀ x ∈ c, x = p.map f32OfNat := by
    intro k
    induction k with
    | zero => intro _; exact ⟨[], rfl, rfl, by simp⟩
    | succ k ih =>
      intro hk
      obtain ⟨c, h1, h2, h3⟩ := ih (by omega)
      have h0 : k / nc = 0 := Nat.div_eq_of_lt (by omega)
      refine ⟨c ++ [p.map f32OfNat], ?_, by simp [h2], ?_⟩
      · simp only [initialCenters, h1, Res.ok_bind, List.length_cons, List.length_nil, Nat.zero_add, Nat.mul_one, h0]
        rfl
      · intro x hx
        rcases List.mem_append.1 hx with hx | hx
        · exact h3 x hx
        · simpa using hx
  obtain ⟨c, h1, h2, h3⟩ := hinit nc (Nat.le_refl _)
  match c, h2, h3 with
  | [], h2, _ => simp at h2; omega
  | x :: rest, h2, h3 =>
    rw [h3 x (by simp)] at h1
    obtain ⟨c', h4, h5⟩ := bind_eq_ok (show _ = Res.ok (means, sel) from h)
    rw [h1, Res.ok.injEq] at h4
    subst h4
    obtain ⟨ca, h6, h7⟩ := bind_eq_ok h5
    obtain ⟨c2, a2⟩ := ca
    have := lloyd_one d nc p hd hp it rest (by simpa using h2.symm) c2 a2 h6
    simp only [Res.pure_eq, Res.ok.injEq, Prod.mk.injEq] at h7
    rw [← h7.2, this]

/-! ### The statistics -/

/-- The statistics of the block-wise strategy: one selector per started group of 50 symbols, the
end-of-block symbol included, and one more when that number is a multiple of 50. -/
theorem blockWise_zle (dist : Distance) (nc it : Nat) (hnc : 1 ≤ nc) (n : Nat) (hn : 1 ≤ n) (d : List UInt8)
    (hd : ∀ i ∈ d, i.toNat < n) :
    ∃ (means : List (List Nat)) (sel : List UInt8), means.length = nc ∧ (∀ m ∈ means, m.length = n + 1) ∧
      sel.length = ((zleEncode 0 d).length + 1) / 50 + 1 ∧ (∀ s ∈ sel, s.toNat < nc) ∧
      (it = 0 → ∀ s ∈ sel, s = 0) ∧
      (dist = euclid → (zleEncode 0 d).length + 1 < 50 → ∀ s ∈ sel, s = 0) ∧
      zleWithStrategy dist (Strategy.blockWise nc it) d n = Res.ok (zleEncode 0 d, ⟨means, sel⟩) := by
  obtain ⟨m, h1, h2⟩ := blockWise_reportAll dist nc it n 0 (zleEncode 0 d ++ [ZleSymbol.runA])
    (by
      intro s hs
      rcases List.mem_append.1 hs with hs | hs
      · exact (zleEncode_symOk n hn d hd s hs).1
      · simp at hs; subst hs; simp [symbolIndex])
    (BlockWiseMap.create n) (BlockWiseMap.ok_create n)
  obtain ⟨means, sel, k1, k2, k3, k4, k5, k6⟩ := kmeansSolve_ok dist (n + 1) nc it hnc (m.maps ++ [m.current])
    (by simp) (by
      intro p hp
      rcases List.mem_append.1 hp with hp | hp
      · exact h2.maps p hp
      · simp only [List.mem_singleton] at hp; subst hp; exact h2.current)
  have hc := h2.count
  have hl := h2.lt
  simp only [List.length_append, List.length_cons, List.length_nil] at hc
  refine ⟨means, sel, k2, k3, ?_, k5, ?_, ?_, ?_⟩
  · rw [k4]
    simp only [List.length_append, List.length_cons, List.length_nil]
    omega
  · intro h0 s hs
    rw [k6 h0] at hs
    exact List.eq_of_mem_replicate hs
  · rintro rfl h50 s hs
    have hm : m.maps = [] := List.length_eq_zero_iff.1 (by omega)
    rw [hm, List.nil_append] at k1
    rw [kmeans_one (n + 1) nc it hnc m.current h2.current
      (fun x hx => by have := h2.small x hx; omega) means sel k1] at hs
    simpa using hs
  · simp only [zleWithStrategy, zleTransform_eq, h1, Res.ok_bind]
    simp only [blockWiseReporter, BlockWiseMap.finalize, h2.size, k1]
    rfl

theorem blockWise_workable (dist : Distance) (nc it : Nat) (hnc : 1 ≤ nc) :
    Workable dist (Strategy.blockWise nc it) nc := by
  intro n enc h1 h2 h3
  obtain ⟨means, sel, k1, k2, k3, k4, -, -, k5⟩ := blockWise_zle dist nc it hnc n h1 enc h2
  have hl := zleEncode_length 0 enc
  exact ⟨_, k5, k1, k2, k4, by simp only [k3]; omega, by simp only [k3]; omega⟩

/-- The statistics of a block with the block-wise strategy. -/
theorem blockWise_stats (dist : Distance) (nc it : Nat) (hnc : 1 ≤ nc) (rle : List UInt8) (hne : rle ≠ [])
    (zle : List ZleSymbol) (rep : ReportedSymbols)
    (h : blockStats dist (Strategy.blockWise nc it) rle = Res.ok (zle, rep)) :
    rep.selectors.length = (zle.length + 1) / 50 + 1 ∧ (∀ s ∈ rep.selectors, s.toNat < nc) ∧
      (it = 0 → ∀ s ∈ rep.selectors, s = 0) ∧
      (dist = euclid → zle.length + 1 < 50 → ∀ s ∈ rep.selectors, s = 0) ∧ zle.length ≤ rle.length := by
  obtain ⟨last, ptr, b1, b2, b3⟩ := C30_bwt_never_fails rle hne
  obtain ⟨enc, m1, m2, m3, m4⟩ := mtf_spec last
  have hlast : last.length = rle.length := b2.length_eq
  have hlne : last ≠ [] := by intro h; rw [h] at hlast; exact hne (List.length_eq_zero_iff.1 hlast.symm)
  have hun : 1 ≤ (usedBytes last).length := by
    obtain ⟨x, hx⟩ := List.exists_mem_of_ne_nil last hlne
    exact List.length_pos_of_mem (mem_usedBytes.2 hx)
  obtain ⟨means, sel, k1, k2, k3, k4, k6, k7, k5⟩ := blockWise_zle dist nc it hnc (usedBytes last).length hun enc m4
  simp only [blockStats, b1, Res.ok_bind, m1, k5, Res.ok.injEq, Prod.mk.injEq] at h
  obtain ⟨rfl, rfl⟩ := h
  have := zleEncode_length 0 enc
  exact ⟨k3, k4, k6, k7, by omega⟩

theorem noGap_zero (sel : List UInt8) (h : ∀ s ∈ sel, s = 0) : NoGap sel := by
  intro s hs t ht
  rw [h s hs] at ht
  exact absurd ht (by simp)

end Ribzip2
