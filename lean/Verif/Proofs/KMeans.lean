import Verif.Proofs.F32Sqrt
import Mathlib.Tactic.GCongr
/- The clustering is Lloyd's algorithm, up to rounding. -/
namespace Ribzip2
open Spec

/-! ### Errors of a product of `k` roundings -/

/-- Bound for one rounding, in both directions. -/
def gfac : ℚ := 1 + 1 / 2 ^ 23

/-- `x` and `y` differ by at most `k` roundings. -/
def Close (k : ℕ) (x y : ℚ) : Prop := 0 ≤ x ∧ 0 ≤ y ∧ x ≤ gfac ^ k * y ∧ y ≤ gfac ^ k * x

theorem gfac_one : 1 ≤ gfac := by unfold gfac; norm_num

theorem gfac_pos : 0 < gfac := by unfold gfac; norm_num

theorem gfac_pow_one (k : ℕ) : 1 ≤ gfac ^ k := one_le_pow₀ gfac_one

theorem Close.refl {x : ℚ} (h : 0 ≤ x) : Close 0 x x := ⟨h, h, by simp, by simp⟩

theorem Close.mono {k l : ℕ} {x y : ℚ} (hkl : k ≤ l) (h : Close k x y) : Close l x y := by
  obtain ⟨h1, h2, h3, h4⟩ := h
  have hg := pow_le_pow_right₀ gfac_one hkl
  exact ⟨h1, h2, h3.trans (mul_le_mul_of_nonneg_right hg h2), h4.trans (mul_le_mul_of_nonneg_right hg h1)⟩

theorem Close.trans {k l : ℕ} {x y z : ℚ} (h : Close k x y) (h' : Close l y z) : Close (k + l) x z := by
  obtain ⟨h1, h2, h3, h4⟩ := h
  obtain ⟨_, g2, g3, g4⟩ := h'
  have hk := (pow_pos gfac_pos k).le
  have hl := (pow_pos gfac_pos l).le
  refine ⟨h1, g2, ?_, ?_⟩
  · calc x ≤ gfac ^ k * y := h3
      _ ≤ gfac ^ k * (gfac ^ l * z) := mul_le_mul_of_nonneg_left g3 hk
      _ = gfac ^ (k + l) * z := by rw [pow_add]; ring
  · calc z ≤ gfac ^ l * y := g4
      _ ≤ gfac ^ l * (gfac ^ k * x) := mul_le_mul_of_nonneg_left h4 hl
      _ = gfac ^ (k + l) * x := by rw [pow_add]; ring

theorem Close.add {k : ℕ} {x y x' y' : ℚ} (h : Close k x y) (h' : Close k x' y') : Close k (x + x') (y + y') := by
  obtain ⟨h1, h2, h3, h4⟩ := h
  obtain ⟨g1, g2, g3, g4⟩ := h'
  exact ⟨by linarith, by linarith, by linarith, by linarith⟩

theorem Close.mul {k l : ℕ} {x y x' y' : ℚ} (h : Close k x y) (h' : Close l x' y') : Close (k + l) (x * x') (y * y') := by
  obtain ⟨h1, h2, h3, h4⟩ := h
  obtain ⟨g1, g2, g3, g4⟩ := h'
  refine ⟨mul_nonneg h1 g1, mul_nonneg h2 g2, ?_, ?_⟩
  · calc x * x' ≤ (gfac ^ k * y) * (gfac ^ l * y') := mul_le_mul h3 g3 g1 (mul_nonneg (pow_pos gfac_pos k).le h2)
      _ = gfac ^ (k + l) * (y * y') := by rw [pow_add]; ring
  · calc y * y' ≤ (gfac ^ k * x) * (gfac ^ l * x') := mul_le_mul h4 g4 g2 (mul_nonneg (pow_pos gfac_pos k).le h1)
      _ = gfac ^ (k + l) * (x * x') := by rw [pow_add]; ring

theorem Close.scale {k : ℕ} {x y : ℚ} (c : ℚ) (hc : 0 ≤ c) (h : Close k x y) : Close k (x * c) (y * c) := by
  have := h.mul (Close.refl hc)
  simpa using this

theorem close_round (q : ℚ) (hq : 0 ≤ q) : Close 1 (f32Round q) q := by
  have h := f32Round_rel q hq
  rw [abs_le] at h
  refine ⟨f32Round_nonneg q, hq, ?_, ?_⟩
  · rw [pow_one, gfac]
    have : q / 2 ^ 24 ≤ 1 / 2 ^ 23 * q := by
      rw [div_le_iff₀ (by positivity)]; norm_num; linarith
    linarith
  · rw [pow_one, gfac]
    have : q - q / 2 ^ 24 ≤ f32Round q := by linarith
    have h2 : q ≤ (1 + 1 / 2 ^ 23) * (q - q / 2 ^ 24) := by
      norm_num; linarith
    refine h2.trans (mul_le_mul_of_nonneg_left this (by norm_num))

theorem f32Sqrt_close (q : ℚ) (hq : 0 ≤ q) : Close 3 (f32Sqrt q * f32Sqrt q) q := by
  rcases hq.eq_or_lt with rfl | hq
  · rw [f32Sqrt, if_pos (le_refl _)]
    simp [Close]
  obtain ⟨e, r, v, a1, r1, r2, r3, hv, hs⟩ := f32Sqrt_eq q hq
  have hp0 : (0 : ℚ) < 2 ^ (32 - e) := by positivity
  generalize (2 : ℚ) ^ (32 - e) = p at *
  have hv1 : (r : ℚ) ≤ v := by rcases hv with ⟨rfl, -⟩ | rfl <;> linarith
  have hv0 : 0 ≤ v := le_trans (by positivity) hv1
  have hr0 : (0 : ℚ) ≤ r := by positivity
  have hn : Close 1 (v * v) (q * (p * p)) := by
    have hn0 : 0 ≤ q * (p * p) := by positivity
    refine ⟨by positivity, hn0, ?_, ?_⟩
    · rw [pow_one, gfac]
      rcases hv with ⟨rfl, hv⟩ | rfl
      · rw [hv]; linarith
      · have : (r : ℚ) + 1 ≤ 1 / 2 ^ 23 * (q * (p * p)) := by nlinarith
        nlinarith
    · rw [pow_one, gfac]
      rcases hv with ⟨rfl, hv⟩ | rfl
      · rw [hv]; linarith
      · nlinarith
  have hw : Close 1 ((v / p) * (v / p)) q := by
    have := hn.scale (1 / (p * p)) (by positivity)
    have e1 : v * v * (1 / (p * p)) = v / p * (v / p) := by field_simp
    have e2 : q * (p * p) * (1 / (p * p)) = q := by field_simp
    rwa [e1, e2] at this
  have hx := close_round (v / p) (by positivity)
  rw [hs]
  exact (hx.mul hx).trans hw

/-! ### The distance -/

theorem euclid_close (c : List ℚ) (p : List ℕ) (hp : ∀ x ∈ p, x < 2 ^ 24) :
    Close (c.length + 6) (euclid c p * euclid c p) (sqDist c p) := by
  have hterm : ∀ l : List (ℚ × ℕ), (∀ x ∈ l, x.2 < 2 ^ 24) → ∀ x ∈ l, Close 3
      (let d := f32Round (if x.1 < f32OfNat x.2 then f32OfNat x.2 - x.1 else x.1 - f32OfNat x.2)
       f32Mul d d) ((x.1 - (x.2 : ℚ)) ^ 2) := by
    intro l hl x hx
    rw [f32OfNat_exact _ (hl x hx)]
    dsimp only
    obtain ⟨a, ha⟩ : ∃ a, a = if x.1 < (x.2 : ℚ) then (x.2 : ℚ) - x.1 else x.1 - x.2 := ⟨_, rfl⟩
    rw [← ha]
    have ha0 : 0 ≤ a := by rw [ha]; split <;> linarith
    have haa : a * a = (x.1 - (x.2 : ℚ)) ^ 2 := by rw [ha]; split <;> ring
    rw [← haa]
    have h1 := close_round a ha0
    exact (close_round _ (mul_nonneg h1.1 h1.1)).trans (h1.mul h1)
  have hsum : ∀ (l : List (ℚ × ℚ)), (∀ x ∈ l, Close 3 x.1 x.2) → ∀ (k : ℕ) (s t : ℚ), 3 ≤ k → Close k s t →
      Close (k + l.length) ((l.map Prod.fst).foldl f32Add s) (t + (l.map Prod.snd).sum) := by
    intro l
    induction l with
    | nil => intro _ k s t _ h; simpa using h
    | cons x l ih =>
      intro hl k s t hk h
      have h1 := h.add ((hl x (by simp)).mono hk)
      have h2 := (close_round _ h1.1).trans h1
      have := ih (fun y hy => hl y (by simp [hy])) (1 + k) _ _ (by omega) h2
      simp only [List.map_cons, List.foldl_cons, List.sum_cons, List.length_cons]
      rw [← add_assoc t, show f32Add s x.1 = f32Round (s + x.1) from rfl]
      refine Close.mono ?_ this
      omega
  have hzip : ∀ x ∈ c.zip p, x.2 < 2 ^ 24 := by
    intro x hx
    exact hp _ (List.of_mem_zip hx).2
  have h0 : Close 3 0 0 := by simp [Close]
  have := hsum ((c.zip p).map fun x =>
      ((let d := f32Round (if x.1 < f32OfNat x.2 then f32OfNat x.2 - x.1 else x.1 - f32OfNat x.2)
       f32Mul d d), ((x.1 - (x.2 : ℚ)) ^ 2))) (by
      intro y hy
      obtain ⟨x, hx, rfl⟩ := List.mem_map.1 hy
      exact hterm _ hzip x hx) 3 0 0 (le_refl _) h0
  rw [List.map_map, List.map_map, zero_add] at this
  have h1 : Close (3 + c.length) (((c.zip p).map fun x =>
      let d := f32Round (if x.1 < f32OfNat x.2 then f32OfNat x.2 - x.1 else x.1 - f32OfNat x.2)
      f32Mul d d).foldl f32Add 0) (sqDist c p) := by
    refine Close.mono ?_ this
    simp
  have h2 := (f32Sqrt_close _ h1.1).trans h1
  rw [show 3 + (3 + c.length) = c.length + 6 by omega] at h2
  exact h2

/-! ### The nearest centre -/

/-- The loop over the centres gives the number of a centre with the least distance; of several the first. -/
theorem nearestLoop_spec (dist : Distance) (point : List Nat) (done rest : List (List Rat)) (m : Rat) (a : Nat)
    (ha : ∃ c, done[a]? = some c ∧ dist c point = m) (hm : ∀ c ∈ done, m ≤ dist c point)
    (hfirst : ∀ b c, b < a → done[b]? = some c → m < dist c point) :
    ∃ c, (done ++ rest)[nearestLoop dist point rest done.length (some m) a]? = some c ∧
      (∀ c' ∈ done ++ rest, dist c point ≤ dist c' point) ∧
      ∀ b c', b < nearestLoop dist point rest done.length (some m) a → (done ++ rest)[b]? = some c' →
        dist c point < dist c' point := by
  induction rest generalizing done m a with
  | nil =>
    obtain ⟨c, h1, h2⟩ := ha
    refine ⟨c, by simpa [nearestLoop] using h1, ?_, ?_⟩
    · intro c' hc'; rw [h2]; exact hm c' (by simpa using hc')
    · intro b c' hb hc'
      rw [h2]; exact hfirst b c' (by simpa [nearestLoop] using hb) (by simpa using hc')
  | cons x rest ih =>
    have hal : a < done.length := by
      obtain ⟨c, h1, -⟩ := ha
      exact (List.getElem?_eq_some_iff.1 h1).1
    have e : done ++ x :: rest = (done ++ [x]) ++ rest := by simp
    rw [e, nearestLoop]
    have hlen : (done ++ [x]).length = done.length + 1 := by simp
    split
    · rename_i hlt
      rw [← hlen]
      refine ih (done ++ [x]) _ _ ⟨x, by simp, rfl⟩ ?_ ?_
      · intro c hc
        rcases List.mem_append.1 hc with hc | hc
        · exact hlt.le.trans (hm c hc)
        · rw [List.mem_singleton.1 hc]
      · intro b c hb hc
        rw [List.getElem?_append_left hb] at hc
        exact lt_of_lt_of_le hlt (hm c (List.mem_of_getElem? hc))
    · rename_i hlt
      rw [← hlen]
      refine ih (done ++ [x]) m a ?_ ?_ ?_
      · obtain ⟨c, h1, h2⟩ := ha
        exact ⟨c, by rw [List.getElem?_append_left hal]; exact h1, h2⟩
      · intro c hc
        rcases List.mem_append.1 hc with hc | hc
        · exact hm c hc
        · rw [List.mem_singleton.1 hc]; exact not_lt.1 hlt
      · intro b c hb hc
        rw [List.getElem?_append_left (by omega)] at hc
        exact hfirst b c hb hc

theorem nearest_spec (dist : Distance) (point : List Nat) (centers : List (List Rat)) (hne : centers ≠ []) :
    ∃ c, centers[nearestLoop dist point centers 0 none 0]? = some c ∧
      (∀ c' ∈ centers, dist c point ≤ dist c' point) ∧
      ∀ b c', b < nearestLoop dist point centers 0 none 0 → centers[b]? = some c' → dist c point < dist c' point := by
  cases centers with
  | nil => exact absurd rfl hne
  | cons x rest =>
    have := nearestLoop_spec dist point [x] rest (dist x point) 0 ⟨x, rfl, rfl⟩ (by simp) (by omega)
    simpa [nearestLoop] using this

theorem gfac_bernoulli (k : ℕ) : gfac ^ k * (1 - k * (1 / 2 ^ 23)) ≤ 1 := by
  induction k with
  | zero => simp
  | succ k ih =>
    have h : gfac * (1 - ((k + 1 : ℕ) : ℚ) * (1 / 2 ^ 23)) ≤ 1 - k * (1 / 2 ^ 23) := by
      unfold gfac
      push_cast
      have : (0 : ℚ) ≤ k := by positivity
      nlinarith
    calc gfac ^ (k + 1) * (1 - ((k + 1 : ℕ) : ℚ) * (1 / 2 ^ 23))
        = gfac ^ k * (gfac * (1 - ((k + 1 : ℕ) : ℚ) * (1 / 2 ^ 23))) := by rw [pow_succ]; ring
      _ ≤ gfac ^ k * (1 - k * (1 / 2 ^ 23)) := mul_le_mul_of_nonneg_left h (pow_pos gfac_pos k).le
      _ ≤ 1 := ih

theorem gfac_bound (k m : ℕ) (ε : ℚ) (hk : k ≤ m) (h : 1 ≤ (1 + ε) * (1 - m * (1 / 2 ^ 23)))
    (hpos : 0 < 1 - (m : ℚ) * (1 / 2 ^ 23)) : gfac ^ k ≤ 1 + ε := by
  refine (pow_le_pow_right₀ gfac_one hk).trans ?_
  have h1 := (gfac_bernoulli m).trans h
  exact le_of_mul_le_mul_right h1 hpos

theorem Close.abs {k : ℕ} {x y ε : ℚ} (hε : 0 ≤ ε) (h : Close k x y) (hg : gfac ^ k ≤ 1 + ε) : |x - y| ≤ ε * y := by
  obtain ⟨h1, h2, h3, h4⟩ := h
  have a1 : x ≤ (1 + ε) * y := h3.trans (mul_le_mul_of_nonneg_right hg h2)
  have a2 : y ≤ (1 + ε) * x := h4.trans (mul_le_mul_of_nonneg_right hg h1)
  rw [abs_le]
  constructor
  · by_contra hc
    have : x < y - ε * y := by linarith
    have h5 : (1 + ε) * x < (1 + ε) * (y - ε * y) := mul_lt_mul_of_pos_left this (by linarith)
    nlinarith [mul_nonneg (mul_nonneg hε hε) h2]
  · linarith

/-- **Assignment.** Every point gets a centre with the least distance, up to rounding. -/
theorem assignAll_nearest (data : List (List Nat)) (centers : List (List Rat)) (d : ℕ) (hd : d ≤ 400)
    (hdata : ∀ p ∈ data, ∀ x ∈ p, x < 2 ^ 24) (hc : ∀ c ∈ centers, c.length = d) (hne : centers ≠ [])
    (h256 : centers.length ≤ 256) :
    NearestUpTo (1 / 10000) data centers ((assignAll euclid data centers).map UInt8.toNat) := by
  refine ⟨by simp [assignAll], ?_⟩
  intro x hx
  obtain ⟨i, hi, hx'⟩ := List.getElem_of_mem hx
  have hid : i < data.length := by simp at hi; omega
  have hx2 : x = (data[i], nearestLoop euclid data[i] centers 0 none 0) := by
    rw [← hx', List.getElem_zip]
    congr 1
    simp only [assignAll, List.map_map, List.getElem_map, Function.comp_apply]
    have := nearestLoop_lt euclid data[i] centers 0 none 0 centers.length (by omega)
      (List.length_pos_iff.2 hne)
    rw [UInt8.toNat_ofNat_of_lt' (by change _ < 256; omega)]
  subst hx2
  obtain ⟨own, k1, k2, -⟩ := nearest_spec euclid data[i] centers hne
  refine ⟨(List.getElem?_eq_some_iff.1 k1).1, ?_⟩
  intro c hcm own' hown
  simp only at hown ⊢
  rw [k1, Option.some.injEq] at hown
  subst hown
  have hp := hdata _ (List.getElem_mem hid)
  have e1 := euclid_close own data[i] hp
  have e2 := euclid_close c data[i] hp
  rw [hc _ (List.mem_of_getElem? k1)] at e1
  rw [hc _ hcm] at e2
  have e3 := k2 c hcm
  have e4 : euclid own data[i] * euclid own data[i] ≤ euclid c data[i] * euclid c data[i] :=
    mul_self_le_mul_self (euclid_nonneg _ _) e3
  have hg : gfac ^ (d + 6 + (d + 6)) ≤ 1 + 1 / 10000 :=
    gfac_bound _ 812 _ (by omega) (by norm_num) (by norm_num)
  calc sqDist own data[i] ≤ gfac ^ (d + 6) * (euclid own data[i] * euclid own data[i]) := e1.2.2.2
    _ ≤ gfac ^ (d + 6) * (euclid c data[i] * euclid c data[i]) := mul_le_mul_of_nonneg_left e4 (pow_pos gfac_pos _).le
    _ ≤ gfac ^ (d + 6) * (gfac ^ (d + 6) * sqDist c data[i]) := mul_le_mul_of_nonneg_left e2.2.2.1 (pow_pos gfac_pos _).le
    _ = gfac ^ (d + 6 + (d + 6)) * sqDist c data[i] := by rw [pow_add]; ring
    _ ≤ (1 + 1 / 10000) * sqDist c data[i] := mul_le_mul_of_nonneg_right hg e2.2.1

end Ribzip2
