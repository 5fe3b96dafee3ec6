import Verif.Proofs.WordHuffman
import Verif.Proofs.IeeeRound
/- `usize` arithmetic of the encoder does not overflow. -/
namespace Ribzip2.Word
open Spec

/-! ### zle.rs -/

theorem encodeZeroAmount_ok {bits n : Nat} (h : n + 1 < 2 ^ bits) :
    encodeZeroAmount bits n = Res.ok (Ribzip2.encodeZeroAmount n) := by
  rw [encodeZeroAmount, addU_ok h]; rfl

theorem flushZeros_ok {σ : Type} (bits : Nat) (rep : SymbolReporter σ) (zc : Nat) (result : List ZleSymbol) (s : σ)
    (h : zc + 1 < 2 ^ bits) : flushZeros bits rep zc result s =
      (if zc > 0 then do
        let enc := Ribzip2.encodeZeroAmount zc
        let s' ← reportAll rep s enc
        pure (result ++ enc, s')
      else Res.ok (result, s)) := by
  unfold flushZeros
  rw [encodeZeroAmount_ok h]
  rfl

theorem zleLoop_ok {σ : Type} (bits : Nat) (rep : SymbolReporter σ) (d : List UInt8) (zc : Nat) (result : List ZleSymbol)
    (s : σ) (h : zc + d.length + 1 < 2 ^ bits) :
    zleLoop bits rep d zc result s = Ribzip2.zleLoop rep d zc result s := by
  induction d generalizing zc result s with
  | nil =>
    rw [zleLoop, flushZeros_ok _ _ _ _ _ (by simpa using h)]
    rfl
  | cons i d ih =>
    rw [List.length_cons] at h
    rw [zleLoop, Ribzip2.zleLoop, flushZeros_ok _ _ _ _ _ (by omega)]
    split
    · rw [addU_ok (by omega), Res.ok_bind]
      exact ih _ _ _ (by omega)
    · have e : ∀ (r : List ZleSymbol) (s : σ), zleLoop bits rep d 0 r s = Ribzip2.zleLoop rep d 0 r s :=
        fun r s => ih _ _ _ (by omega)
      simp only [e]
      split
      · simp only [bind_assoc, Res.pure_eq, Res.ok_bind]
      · rfl

theorem zleTransform_ok {σ : Type} (bits : Nat) (rep : SymbolReporter σ) (d : List UInt8)
    (s : σ) (h : d.length + 1 < 2 ^ bits) : zleTransform bits rep s d = Ribzip2.zleTransform rep s d := by
  unfold zleTransform Ribzip2.zleTransform
  rw [zleLoop_ok _ _ _ _ _ _ (by omega)]

/-! ### Statistics -/

theorem sum_set (l : List Nat) (i : Nat) (h : i < l.length) : (l.set i (l[i] + 1)).sum = l.sum + 1 := by
  induction l generalizing i with
  | nil => simp at h
  | cons x l ih =>
    cases i with
    | zero => simp; omega
    | succ i =>
      have := ih i (by simpa using h)
      simp only [List.set_cons_succ, List.getElem_cons_succ, List.sum_cons, this]
      omega

theorem single_step (bits : Nat) (s : SingleMap) (sym : ZleSymbol) (h1 : s.frequencies.sum = s.symbolCount)
    (h2 : s.symbolCount + 1 < 2 ^ bits) :
    singleReport bits s sym = s.report sym ∧
      ∀ s', s.report sym = Res.ok s' → s'.frequencies.sum = s'.symbolCount ∧ s'.symbolCount = s.symbolCount + 1 := by
  unfold singleReport SingleMap.report
  rw [addU_ok h2, Res.ok_bind]
  by_cases hi : symbolIndex sym < s.frequencies.length
  · have hc : s.frequencies[symbolIndex sym] ≤ s.frequencies.sum := le_sum (List.getElem_mem hi)
    simp only [idx, List.getElem?_eq_getElem hi, Res.ofOption_some, Res.ok_bind, setIdx, if_pos hi, Res.pure_eq]
    rw [addU_ok (by omega)]
    simp only [Res.ok_bind, if_pos hi, true_and, Res.ok.injEq]
    rintro s' rfl
    refine ⟨?_, rfl⟩
    simp only
    rw [sum_set _ _ hi, h1]
  · simp [idx, hi]

theorem single_all (bits : Nat) (l : List ZleSymbol) (s : SingleMap) (h1 : s.frequencies.sum = s.symbolCount)
    (h2 : s.symbolCount + l.length < 2 ^ bits) :
    reportAll ⟨singleReport bits, singleFinalize bits⟩ s l = reportAll ⟨SingleMap.report, SingleMap.finalize32⟩ s l ∧
      ∀ s', reportAll ⟨SingleMap.report, SingleMap.finalize32⟩ s l = Res.ok s' →
        s'.frequencies.sum = s'.symbolCount ∧ s'.symbolCount = s.symbolCount + l.length := by
  induction l generalizing s with
  | nil =>
    refine ⟨rfl, ?_⟩
    intro s' h
    simp only [reportAll, Res.ok.injEq] at h
    subst h
    exact ⟨h1, rfl⟩
  | cons x l ih =>
    rw [List.length_cons] at h2
    obtain ⟨g1, g2⟩ := single_step bits s x h1 (by omega)
    simp only [reportAll, g1]
    cases hr : s.report x with
    | ok s1 =>
      obtain ⟨k1, k2⟩ := g2 s1 hr
      obtain ⟨i1, i2⟩ := ih s1 k1 (by omega)
      simp only [Res.ok_bind]
      refine ⟨i1, ?_⟩
      intro s' h
      obtain ⟨j1, j2⟩ := i2 s' h
      exact ⟨j1, by rw [j2, k2, List.length_cons]; omega⟩
    | err => simp
    | panic => simp
    | div => simp

theorem toUsize_ok (bits : Nat) (hb : 32 ≤ bits) (x : ℚ) (h : x < 2 ^ 32) : toUsize bits (F32.num x) = x.floor.toNat := by
  have h32 : 2 ^ 32 ≤ 2 ^ bits := Nat.pow_le_pow_right (by omega) hb
  apply Nat.min_eq_left
  have h1 : x.floor < (4294967296 : ℤ) := by
    rw [ratFloor, Int.floor_lt]
    refine lt_of_lt_of_eq h ?_
    norm_num
  omega

theorem singleFinalize_ok (bits : Nat) (hb : 32 ≤ bits) (s : SingleMap) (h : s.symbolCount ≤ 2 ^ 20) :
    singleFinalize bits s = s.finalize := by
  have h1 : InR 0 20 (f32OfNat s.symbolCount) := (inR_nat s.symbolCount 20 h).round
  have h2 : InR (-6) 20 (f32OfNat s.symbolCount / 50) :=
    (h1.div (c := 6) (by norm_num) (by norm_num)).mono (by norm_num) (le_refl _)
  have h3 : f32Div (f32OfNat s.symbolCount) 50 ≤ 2 ^ (20 : ℤ) := h2.round.le
  unfold singleFinalize SingleMap.finalize
  rw [ofNat_num s.symbolCount 20 (by norm_num) h]
  have e : (F32.num (f32OfNat s.symbolCount)).div (F32.num 50) = F32.num (f32Div (f32OfNat s.symbolCount) 50) := by
    rw [F32.div, if_neg (by norm_num)]
    exact round_pos h2 (by norm_num) (by norm_num)
  have h4 : (f32Div (f32OfNat s.symbolCount) 50).ceil ≤ (1048576 : ℤ) := by
    rw [ratCeil, Int.ceil_le]
    refine h3.trans ?_
    norm_num
  rw [e, F32.ceil, toUsize_ok bits hb _ (by
    have : (((f32Div (f32OfNat s.symbolCount) 50).ceil : ℤ) : ℚ) ≤ 1048576 := by exact_mod_cast h4
    refine lt_of_le_of_lt this ?_
    norm_num)]
  congr 3

theorem blockWise_step (bits : Nat) (hb : 32 ≤ bits) (s : BlockWiseMap) (sym : ZleSymbol) (h : s.counter < 50) :
    blockWiseReport bits s sym = s.report sym ∧ ∀ s', s.report sym = Res.ok s' → s'.counter < 50 := by
  have h32 : 2 ^ 32 ≤ 2 ^ bits := Nat.pow_le_pow_right (by omega) hb
  unfold blockWiseReport BlockWiseMap.report
  rw [addU_ok (by omega)]
  refine ⟨rfl, ?_⟩
  intro s' h'
  obtain ⟨c, -, h'⟩ := bind_eq_ok h'
  dsimp only at h'
  have h' : (do
      let current ← setIdx s.current (symbolIndex sym) (c + 1)
      if s.counter + 1 ≥ 50 then
        (pure { s with current := List.replicate (s.size + 1) 0, maps := s.maps ++ [current], counter := 0 } : Res _)
      else pure { s with current := current, counter := s.counter + 1 }) = Res.ok s' := by
    by_cases hc : c + 1 < 256
    · rw [if_pos hc] at h'
      exact h'
    · rw [if_neg hc] at h'
      exact absurd h' (by simp)
  obtain ⟨c, -, h'⟩ := bind_eq_ok h'
  split at h'
  · simp only [Res.pure_eq, Res.ok.injEq] at h'
    subst h'
    simp
  · simp only [Res.pure_eq, Res.ok.injEq] at h'
    subst h'
    simp only
    omega

theorem blockWise_all (bits : Nat) (hb : 32 ≤ bits) (f1 f2 : BlockWiseMap → Res ReportedSymbols) (l : List ZleSymbol)
    (s : BlockWiseMap) (h : s.counter < 50) :
    reportAll ⟨blockWiseReport bits, f1⟩ s l = reportAll ⟨BlockWiseMap.report, f2⟩ s l := by
  induction l generalizing s with
  | nil => rfl
  | cons x l ih =>
    obtain ⟨g1, g2⟩ := blockWise_step bits hb s x h
    simp only [reportAll, g1]
    cases hr : s.report x with
    | ok s1 => exact ih s1 (g2 s1 hr)
    | err => rfl
    | panic => rfl
    | div => rfl

/-! ### Clustering: the centres are at most 64 -/

theorem f32Round_le (q y : ℚ) (hq : 0 ≤ q) (h : q ≤ y) (hy : IsF32 y) : f32Round q ≤ y := by
  by_contra hc
  have h1 := f32Round_nearest q hq y hy
  rw [abs_of_nonneg (by linarith), abs_of_nonneg (by linarith)] at h1
  linarith

/-- An entry of a centre. -/
def Small (x : ℚ) : Prop := 0 ≤ x ∧ x ≤ 64

theorem small_step (x : ℚ) (hx : Small x) (k p : ℕ) (hk : k + 1 < 2 ^ 24) (hp : p ≤ 64) :
    Small (f32Div (f32Add (f32Mul x (f32OfNat k)) (f32OfNat p)) (f32Add (f32OfNat k) 1)) := by
  refine ⟨f32Round_nonneg _, ?_⟩
  have hk1 : f32Add (k : ℚ) 1 = k + 1 := by
    have := f32Round_nat (k + 1) (by omega)
    push_cast at this
    exact this
  rw [f32OfNat_exact k (by omega), f32OfNat_exact p (by omega), hk1]
  have hkq : (0 : ℚ) ≤ k := by positivity
  have hpq : (p : ℚ) ≤ 64 := by exact_mod_cast hp
  have h1 : f32Mul x k ≤ k * 2 ^ (6 : ℤ) := by
    refine f32Round_le _ _ (mul_nonneg hx.1 hkq) ?_ ⟨k, 6, by omega, rfl⟩
    have : (2 : ℚ) ^ (6 : ℤ) = 64 := by norm_num
    rw [this]
    nlinarith [hx.2]
  have h0 : 0 ≤ f32Mul x k := f32Round_nonneg _
  have h2 : f32Add (f32Mul x k) p ≤ ((k + 1 : ℕ) : ℚ) * 2 ^ (6 : ℤ) := by
    refine f32Round_le _ _ (by positivity) ?_ ⟨k + 1, 6, by omega, rfl⟩
    have : (2 : ℚ) ^ (6 : ℤ) = 64 := by norm_num
    rw [this] at h1 ⊢
    push_cast
    linarith
  have h3 : 0 ≤ f32Add (f32Mul x k) p := f32Round_nonneg _
  refine f32Round_le _ _ (by positivity) ?_ ⟨1, 6, by norm_num, by norm_num⟩
  have : (2 : ℚ) ^ (6 : ℤ) = 64 := by norm_num
  rw [this] at h2
  push_cast at h2
  rw [div_le_iff₀ (by positivity)]
  linarith

theorem small_center (c : List ℚ) (hc : ∀ x ∈ c, Small x) (k : ℕ) (hk : k + 1 < 2 ^ 24) (p : List ℕ) (hp : ∀ y ∈ p, y ≤ 64) :
    ∀ x ∈ updateCenter c k p, Small x := by
  intro x hx
  rcases List.mem_append.1 hx with hx | hx
  · obtain ⟨⟨a, b⟩, hab, rfl⟩ := List.mem_map.1 hx
    have := List.of_mem_zip hab
    exact small_step a (hc a this.1) k b hk (hp b this.2)
  · exact hc x (List.mem_of_mem_drop hx)

theorem small_update (l : List (List ℕ × UInt8)) (hl : ∀ q ∈ l, ∀ y ∈ q.1, y ≤ 64) (centers : List (List ℚ)) (sizes : List ℕ)
    (hc : ∀ c ∈ centers, ∀ x ∈ c, Small x) (K : ℕ) (hs : ∀ k ∈ sizes, k ≤ K) (hK : K + l.length < 2 ^ 24)
    (out : List (List ℚ)) (h : updateLoop l centers sizes = Res.ok out) : ∀ c ∈ out, ∀ x ∈ c, Small x := by
  induction l generalizing centers sizes K with
  | nil =>
    simp only [updateLoop, Res.ok.injEq] at h
    subst h
    exact hc
  | cons q l ih =>
    obtain ⟨p, a⟩ := q
    rw [List.length_cons] at hK
    rw [updateLoop] at h
    obtain ⟨k, k1, h⟩ := bind_eq_ok h
    obtain ⟨c, k2, h⟩ := bind_eq_ok h
    obtain ⟨cs, k3, h⟩ := bind_eq_ok h
    obtain ⟨ss, k4, h⟩ := bind_eq_ok h
    have mem : ∀ {α : Type} {l : List α} {i : ℕ} {x : α}, idx l i = Res.ok x → x ∈ l := by
      intro α l i x h
      unfold idx at h
      cases hg : l[i]? with
      | none => rw [hg] at h; simp [Res.ofOption] at h
      | some y =>
        rw [hg, Res.ofOption_some, Res.ok.injEq] at h
        subst h
        exact List.mem_of_getElem? hg
    have hk := hs k (mem k1)
    have hcs := hc c (mem k2)
    unfold setIdx at k3 k4
    split at k3
    · split at k4
      · rw [Res.ok.injEq] at k3 k4
        subst k3 k4
        refine ih (fun q hq => hl q (by simp [hq])) _ _ ?_ (K + 1) ?_ (by omega) h
        · intro c' hc' x hx
          rcases List.mem_or_eq_of_mem_set hc' with h' | rfl
          · exact hc c' h' x hx
          · exact small_center c hcs k (by omega) p (hl (p, a) (by simp)) x hx
        · intro k' hk'
          rcases List.mem_or_eq_of_mem_set hk' with h' | rfl
          · have := hs k' h'; omega
          · omega
      · simp at k4
    · simp at k3

theorem small_lloyd (d nc : ℕ) (data : List (List ℕ)) (hd : ∀ p ∈ data, ∀ y ∈ p, y ≤ 64) (hlen : data.length < 2 ^ 24)
    (it : ℕ) (centers : List (List ℚ)) (hc : ∀ c ∈ centers, ∀ x ∈ c, Small x) (a : List UInt8) (out : List (List ℚ))
    (a' : List UInt8) (h : lloyd euclid d nc data it centers a = Res.ok (out, a')) : ∀ c ∈ out, ∀ x ∈ c, Small x := by
  induction it generalizing centers a with
  | zero =>
    simp only [lloyd, Res.ok.injEq, Prod.mk.injEq] at h
    rw [← h.1]; exact hc
  | succ it ih =>
    rw [lloyd] at h
    obtain ⟨c1, k1, k2⟩ := bind_eq_ok h
    refine ih c1 ?_ _ k2
    refine small_update _ (fun q hq => hd _ (List.of_mem_zip hq).1) _ _ ?_ 0 ?_ ?_ c1 k1
    · intro c hc x hx
      obtain ⟨_, _, rfl⟩ := List.mem_map.1 hc
      rw [List.eq_of_mem_replicate hx]
      exact ⟨le_refl _, by norm_num⟩
    · intro k hk
      rw [List.eq_of_mem_replicate hk]
    · have : (data.zip (assignAll euclid data centers)).length ≤ data.length := by
        rw [List.length_zip]; omega
      omega

theorem small_initial (data : List (List ℕ)) (hd : ∀ p ∈ data, ∀ y ∈ p, y ≤ 64) (nc k : ℕ) (out : List (List ℚ))
    (h : Ribzip2.initialCenters data nc k = Res.ok out) : ∀ c ∈ out, ∀ x ∈ c, Small x := by
  induction k generalizing out with
  | zero =>
    simp only [Ribzip2.initialCenters, Res.ok.injEq] at h
    subst h
    simp
  | succ k ih =>
    rw [Ribzip2.initialCenters] at h
    obtain ⟨prev, k1, h⟩ := bind_eq_ok h
    obtain ⟨point, k2, h⟩ := bind_eq_ok h
    simp only [Res.pure_eq, Res.ok.injEq] at h
    subst h
    intro c hc x hx
    rcases List.mem_append.1 hc with hc | hc
    · exact ih prev k1 c hc x hx
    · rw [List.mem_singleton] at hc
      subst hc
      obtain ⟨y, hy, rfl⟩ := List.mem_map.1 hx
      have hp : point ∈ data := by
        unfold idx at k2
        cases hg : data[k * data.length / nc]? with
        | none => rw [hg] at k2; simp [Res.ofOption] at k2
        | some z =>
          rw [hg, Res.ofOption_some, Res.ok.injEq] at k2
          subst k2
          exact List.mem_of_getElem? hg
      have h64 := hd point hp y hy
      rw [f32OfNat_exact y (by omega)]
      exact ⟨by positivity, by exact_mod_cast h64⟩

theorem small_scaled (x : ℚ) (hx : Small x) : f32Mul x 10000 ≤ 640000 := by
  refine f32Round_le _ _ (mul_nonneg hx.1 (by norm_num)) (by linarith [hx.2]) ⟨640000, 0, by norm_num, by norm_num⟩

theorem sum_le_mul (l : List ℕ) (b : ℕ) (h : ∀ x ∈ l, x ≤ b) : l.sum ≤ l.length * b := by
  induction l with
  | nil => simp
  | cons x l ih =>
    have h1 := h x (by simp)
    have h2 := ih (fun y hy => h y (by simp [hy]))
    rw [List.sum_cons, List.length_cons, Nat.succ_mul]
    omega

theorem initialCenters_word (bits : ℕ) (data : List (List ℕ)) (nc k : ℕ) (h : k * data.length < 2 ^ bits) :
    initialCenters bits data nc k = initialCenters32 data nc k := by
  induction k with
  | zero => rfl
  | succ k ih =>
    rw [Nat.succ_mul] at h
    rw [initialCenters, initialCenters32, ih (by omega), mulU_ok (by omega)]
    rfl

/-- The clustering does not overflow, and its tables are small. -/
theorem kmeansSolve_ok (bits : ℕ) (hb : 32 ≤ bits) (d nc it : ℕ) (data : List (List ℕ))
    (hd : ∀ p ∈ data, p.length = d ∧ ∀ y ∈ p, y ≤ 50)
    (h400 : d ≤ 400) (hlen : data.length ≤ 25000) (hnc : nc ≤ 2 ^ 17) :
    kmeansSolve bits d data it nc = Ribzip2.kmeansSolve euclid d data it nc ∧
      ∀ means a, Ribzip2.kmeansSolve euclid d data it nc = Res.ok (means, a) → ∀ f ∈ means, ∀ x ∈ f, x ≤ 640000 := by
  have h32 : 2 ^ 32 ≤ 2 ^ bits := Nat.pow_le_pow_right (by omega) hb
  have hd256 : ∀ p ∈ data, p.length = d ∧ ∀ y ∈ p, y < 256 :=
    fun p hp => ⟨(hd p hp).1, fun y hy => by have := (hd p hp).2 y hy; omega⟩
  have hd64 : ∀ p ∈ data, ∀ y ∈ p, y ≤ 64 := fun p hp y hy => by have := (hd p hp).2 y hy; omega
  have hmul : nc * data.length < 2 ^ bits := by
    have : nc * data.length ≤ 2 ^ 17 * 25000 := Nat.mul_le_mul hnc hlen
    omega
  have hi := initialCenters32_eq data (fun p hp => (hd256 p hp).2) nc nc
  unfold kmeansSolve Ribzip2.kmeansSolve
  rw [initialCenters_word bits data nc nc hmul]
  cases hr : Ribzip2.initialCenters data nc nc with
  | ok out =>
    rw [hr] at hi
    obtain ⟨i1, i2⟩ := hi
    rw [i1, Res.ok_bind, Res.ok_bind]
    have hshape : out.length = nc ∧ ∀ c ∈ out, c.length = d := by
      by_cases hne : data = []
      · subst hne
        cases nc with
        | zero =>
          simp only [Ribzip2.initialCenters, Res.ok.injEq] at hr
          subst hr
          exact ⟨rfl, by simp⟩
        | succ nc =>
          simp only [Ribzip2.initialCenters] at hr
          obtain ⟨_, _, h⟩ := bind_eq_ok hr
          simp [idx, Res.ofOption] at h
      · obtain ⟨c, c1, c2, c3⟩ := initialCenters_ok data d nc (fun p hp => (hd p hp).1) hne nc (Nat.le_refl _)
        rw [hr, Res.ok.injEq] at c1
        subst c1
        exact ⟨c2, c3⟩
    have hl := lloyd32_eq d nc data hd256 h400 hlen it out hshape.1 (fun c hc => ⟨hshape.2 c hc, i2 c hc⟩)
      (List.replicate data.length 0)
    cases hr2 : lloyd euclid d nc data it out (List.replicate data.length 0) with
    | ok r =>
      obtain ⟨o, a⟩ := r
      rw [hr2] at hl
      obtain ⟨l1, l2⟩ := hl
      have hsm := small_lloyd d nc data hd64 (by omega) it out (small_initial data hd64 nc nc out hr) _ o a hr2
      rw [l1, Res.ok_bind, Res.ok_bind]
      constructor
      · simp only [Res.pure_eq, Res.ok.injEq, Prod.mk.injEq, and_true, List.map_map]
        apply List.map_congr_left
        intro c hc
        rw [Function.comp_apply, List.map_map]
        apply List.map_congr_left
        intro x hx
        have hx' := l2 c hc x hx
        have h1 : InR 0 14 (10000 : ℚ) := by
          right
          constructor <;> norm_num
        have h2 : InR (-15) 23 (x * 10000) := (hx'.2.mul h1).mono (by norm_num) (by norm_num)
        have e : (F32.num x).mul (F32.num 10000) = F32.num (f32Mul x 10000) := round_pos h2 (by norm_num) (by norm_num)
        rw [Function.comp_apply, e]
        refine toUsize_ok bits hb _ (lt_of_le_of_lt (small_scaled x (hsm c hc x hx)) (by norm_num))
      · intro means a' h f hf x hx
        simp only [Res.pure_eq, Res.ok.injEq, Prod.mk.injEq] at h
        rw [← h.1] at hf
        obtain ⟨c, hc, rfl⟩ := List.mem_map.1 hf
        obtain ⟨y, hy, rfl⟩ := List.mem_map.1 hx
        have := small_scaled y (hsm c hc y hy)
        have h2 : (f32Mul y 10000).floor ≤ (640000 : ℤ) := by
          rw [ratFloor]
          exact_mod_cast (Int.floor_le _).trans this
        omega
    | err => rw [hr2] at hl; rw [hl]; simp
    | panic => rw [hr2] at hl; rw [hl]; simp
    | div => rw [hr2] at hl; rw [hl]; simp
  | err => rw [hr] at hi; rw [hi]; simp
  | panic => rw [hr] at hi; rw [hi]; simp
  | div => rw [hr] at hi; rw [hi]; simp

end Ribzip2.Word
