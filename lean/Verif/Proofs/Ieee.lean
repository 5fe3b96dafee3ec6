import Mathlib.Tactic.NormNum.Basic
import Mathlib.Tactic.Positivity
import Verif.Model.Ieee
import Verif.Proofs.KMeansBlock
/- The numbers of the clustering stay inside the normal range of binary32. -/
namespace Ribzip2
open Spec

/-- `x` is 0 or lies between two powers of two. -/
def InR (a b : ℤ) (x : ℚ) : Prop := x = 0 ∨ (2 : ℚ) ^ a ≤ x ∧ x ≤ 2 ^ b

theorem zpow_le_of {a b : ℤ} (h : a ≤ b) : (2 : ℚ) ^ a ≤ 2 ^ b := zpow_le_zpow_right₀ (by norm_num) h

theorem InR.nonneg {a b : ℤ} {x : ℚ} (h : InR a b x) : 0 ≤ x := by
  rcases h with rfl | ⟨h, -⟩
  · exact le_refl _
  · exact le_trans (two_zpow_pos a).le h

theorem InR.le {a b : ℤ} {x : ℚ} (h : InR a b x) : x ≤ 2 ^ b := by
  rcases h with rfl | ⟨-, h⟩
  · exact (two_zpow_pos b).le
  · exact h

theorem InR.mono {a b a' b' : ℤ} {x : ℚ} (h : InR a b x) (ha : a' ≤ a) (hb : b ≤ b') : InR a' b' x := by
  rcases h with rfl | ⟨h1, h2⟩
  · exact Or.inl rfl
  · exact Or.inr ⟨(zpow_le_of ha).trans h1, h2.trans (zpow_le_of hb)⟩

theorem InR.mul {a b a' b' : ℤ} {x y : ℚ} (h : InR a b x) (h' : InR a' b' y) : InR (a + a') (b + b') (x * y) := by
  rcases h with rfl | ⟨h1, h2⟩
  · left; simp
  rcases h' with rfl | ⟨g1, g2⟩
  · left; simp
  right
  have p1 := two_zpow_pos a
  have p2 := two_zpow_pos a'
  rw [zpow_add₀ (by norm_num), zpow_add₀ (by norm_num)]
  exact ⟨mul_le_mul h1 g1 p2.le (p1.le.trans h1), mul_le_mul h2 g2 (p2.le.trans g1) (two_zpow_pos b).le⟩

theorem InR.add {a b : ℤ} {x y : ℚ} (h : InR a b x) (h' : InR a b y) : InR a (b + 1) (x + y) := by
  have k1 := h.le
  have k2 := h'.le
  have n1 := h.nonneg
  have n2 := h'.nonneg
  have hb : (2 : ℚ) ^ (b + 1) = 2 * 2 ^ b := by rw [zpow_add₀ (by norm_num)]; ring
  rcases h with rfl | ⟨h1, h2⟩
  · rw [zero_add]
    exact h'.mono (le_refl _) (by omega)
  · exact Or.inr ⟨by linarith, by rw [hb]; linarith⟩

theorem InR.div {a b c : ℤ} {x y : ℚ} (h : InR a b x) (h1 : 1 ≤ y) (h2 : y ≤ 2 ^ c) : InR (a - c) b (x / y) := by
  rcases h with rfl | ⟨g1, g2⟩
  · left; simp
  right
  have hy : 0 < y := by linarith
  have hx : 0 ≤ x := (two_zpow_pos a).le.trans g1
  constructor
  · rw [le_div_iff₀ hy]
    calc (2 : ℚ) ^ (a - c) * y ≤ 2 ^ (a - c) * 2 ^ c := mul_le_mul_of_nonneg_left h2 (two_zpow_pos _).le
      _ = 2 ^ a := by rw [← zpow_add₀ (by norm_num)]; congr 1; omega
      _ ≤ x := g1
  · rw [div_le_iff₀ hy]
    have := mul_le_mul_of_nonneg_left h1 (hx.trans g2)
    linarith

theorem inR_nat (n : ℕ) (b : ℕ) (h : n ≤ 2 ^ b) : InR 0 b (n : ℚ) := by
  rcases Nat.eq_zero_or_pos n with rfl | hn
  · left; simp
  · right
    refine ⟨by simpa using (by exact_mod_cast hn : (1 : ℚ) ≤ n), ?_⟩
    rw [zpow_natCast]
    exact_mod_cast h

theorem f32Round_le_pow (q : ℚ) (hq : 0 ≤ q) (e : ℤ) (h : q ≤ 2 ^ e) : f32Round q ≤ 2 ^ e := by
  have h1 := f32Round_nearest q hq _ (isF32_pow e)
  rw [abs_of_nonneg (by linarith : (0 : ℚ) ≤ 2 ^ e - q)] at h1
  have := le_abs_self (f32Round q - q)
  linarith

theorem InR.round {a b : ℤ} {x : ℚ} (h : InR a b x) : InR a b (f32Round x) := by
  have h0 := h.nonneg
  rcases h with rfl | ⟨h1, h2⟩
  · left; exact f32Round_zero
  · exact Or.inr ⟨f32Round_ge_pow x ((two_zpow_pos a).trans_le h1) a h1, f32Round_le_pow x h0 b h2⟩

/-- Inside the normal range the bounded exponents make no difference. -/
theorem round_pos {a b : ℤ} {x : ℚ} (h : InR a b x) (ha : -126 ≤ a) (hb : b ≤ 127) : F32.round x = F32.num (f32Round x) := by
  have hr := h.round.le
  have hr0 := h.round.nonneg
  rcases h with rfl | ⟨h1, h2⟩
  · rw [F32.round, if_pos rfl, f32Round_zero]
  have hx : 0 < x := (two_zpow_pos a).trans_le h1
  have hl : -126 ≤ ilog2 x := by
    have h3 := lt_ilog2 x hx
    have := (zpow_lt_zpow_iff_right₀ (by norm_num : (1 : ℚ) < 2)).1 (lt_of_le_of_lt h1 h3)
    omega
  unfold F32.round
  rw [if_neg hx.ne', if_neg (not_lt.2 hx.le)]
  dsimp only
  rw [max_eq_left hl, ← f32Round_pos_eq x hx, if_neg (not_lt.2 hx.le), if_neg]
  rw [pow2_eq, not_le]
  exact hr.trans_lt ((zpow_lt_zpow_iff_right₀ (by norm_num : (1 : ℚ) < 2)).2 (by omega))

theorem round_neg {a b : ℤ} {x : ℚ} (h : InR a b x) (ha : -126 ≤ a) (hb : b ≤ 127) :
    F32.round (-x) = F32.num (-(f32Round x)) := by
  have h' := round_pos h ha hb
  rcases h with rfl | ⟨h1, h2⟩
  · rw [neg_zero, F32.round, if_pos rfl, f32Round_zero, neg_zero]
  have hx : 0 < x := (two_zpow_pos a).trans_le h1
  unfold F32.round at h' ⊢
  rw [if_neg hx.ne', if_neg (not_lt.2 hx.le)] at h'
  rw [if_neg (neg_ne_zero.2 hx.ne'), if_pos (neg_lt_zero.2 hx), neg_neg]
  dsimp only at h' ⊢
  split at h'
  · simp at h'
  · rename_i hn
    rw [if_neg hn, if_pos (neg_lt_zero.2 hx)]
    rw [if_neg (not_lt.2 hx.le)] at h'
    rw [F32.num.injEq] at h' ⊢
    rw [h']

theorem ofNat_num (n b : ℕ) (hb : b ≤ 127) (h : n ≤ 2 ^ b) : F32.ofNat n = F32.num (f32OfNat n) :=
  round_pos (inR_nat n b h) (by norm_num) (by exact_mod_cast hb)

theorem ofNat_exact (n : ℕ) (h : n < 2 ^ 24) : F32.ofNat n = F32.num n := by
  rw [ofNat_num n 24 (by norm_num) (by omega), f32OfNat_exact n h]

/-- What is true of every entry of a centre. -/
def Entry (x : ℚ) : Prop := IsF32 x ∧ InR (-15) 9 x

/-- The difference of an integer and a multiple of `1 / N` is 0 or at least `1 / N`. -/
theorem diff_multiple (N z p : ℤ) (u : ℚ) (hu : 0 < u) (hN : (N : ℚ) * u = 1) (h0 : (z : ℚ) * u - p ≠ 0) :
    u ≤ |(z : ℚ) * u - p| := by
  have e : (z : ℚ) * u - p = ((z - p * N : ℤ) : ℚ) * u := by
    push_cast
    rw [sub_mul, mul_assoc, hN, mul_one]
  rw [e] at h0 ⊢
  have : (1 : ℤ) ≤ |z - p * N| := by
    apply Int.one_le_abs
    intro hc
    rw [hc] at h0
    simp at h0
  rw [abs_mul, abs_of_pos hu]
  have h3 : (1 : ℚ) ≤ |((z - p * N : ℤ) : ℚ)| := by exact_mod_cast this
  have := mul_le_mul_of_nonneg_right h3 hu.le
  linarith

/-- The difference of an entry and a counter is a multiple of `2^-38`. -/
theorem diff_range (x : ℚ) (hx : Entry x) (p : ℕ) (hp : p < 256) : InR (-38) 9 |x - p| := by
  obtain ⟨h1, h2⟩ := hx
  obtain ⟨z, hz⟩ : ∃ z : ℕ, x = z * (2 : ℚ) ^ ((-15 : ℤ) - 23) := by
    rcases isF32_cases x h1 (-15) with ⟨z, hz⟩ | h
    · exact ⟨z, hz⟩
    · rcases h2 with rfl | ⟨h2, -⟩
      · exact ⟨0, by simp⟩
      · exact absurd h2 (not_le.2 h)
  have hx9 := h2.le
  have hx0 := h2.nonneg
  have hp' : (p : ℚ) < 256 := by exact_mod_cast hp
  have hp0 : (0 : ℚ) ≤ p := by positivity
  by_cases h0 : x - p = 0
  · left; rw [h0, abs_zero]
  right
  constructor
  · obtain ⟨N, hN⟩ : ∃ N : ℤ, (N : ℚ) * (2 : ℚ) ^ ((-15 : ℤ) - 23) = 1 := by
      refine ⟨274877906944, ?_⟩
      norm_num
    have := diff_multiple N z p _ (two_zpow_pos _) hN (by
      rw [hz] at h0
      exact_mod_cast h0)
    rw [hz]
    exact_mod_cast this
  · have h29 : (2 : ℚ) ^ (9 : ℤ) = 512 := by norm_num
    rw [h29] at hx9 ⊢
    rw [abs_le]
    constructor <;> linarith

theorem sub_num (x : ℚ) (hx : Entry x) (p : ℕ) (hp : p < 256) :
    (F32.num x).sub (F32.ofNat p) = F32.num (f32Round |x - p|) ∨ (F32.num x).sub (F32.ofNat p) = F32.num (-(f32Round |x - p|)) := by
  have hr := diff_range x hx p hp
  rw [ofNat_exact p (by omega)]
  have e : (F32.num x).sub (F32.num p) = F32.round (x - p) := by simp only [F32.sub, F32.neg, F32.add, sub_eq_add_neg]
  rw [e]
  rcases le_or_gt 0 (x - p) with h | h
  · left
    rw [abs_of_nonneg h] at hr ⊢
    exact round_pos hr (by norm_num) (by norm_num)
  · right
    rw [abs_of_neg h] at hr ⊢
    have := round_neg hr (by norm_num) (by norm_num)
    rwa [neg_neg] at this

/-- One term of the distance. -/
theorem term_num (x : ℚ) (hx : Entry x) (p : ℕ) (hp : p < 256) :
    ((F32.num x).sub (F32.ofNat p)).mul ((F32.num x).sub (F32.ofNat p)) =
      F32.num (f32Mul (f32Round |x - p|) (f32Round |x - p|)) ∧
    InR (-76) 18 (f32Mul (f32Round |x - p|) (f32Round |x - p|)) := by
  have hr := (diff_range x hx p hp).round
  have hm := hr.mul hr
  have hm' : InR (-76) 18 (f32Round |x - p| * f32Round |x - p|) := hm.mono (by norm_num) (by norm_num)
  refine ⟨?_, hm'.round⟩
  rcases sub_num x hx p hp with h | h
  · rw [h]; exact round_pos hm' (by norm_num) (by norm_num)
  · rw [h]
    simp only [F32.mul, neg_mul_neg]
    exact round_pos hm' (by norm_num) (by norm_num)

theorem add_step (k : ℕ) (hk : k ≤ 400) (s t : ℚ) (hs : s = 0 ∨ (2 : ℚ) ^ (-76 : ℤ) ≤ s) (hsk : s ≤ k * 2 ^ 19)
    (ht : InR (-76) 18 t) :
    F32.round (s + t) = F32.num (f32Add s t) ∧ (f32Add s t = 0 ∨ (2 : ℚ) ^ (-76 : ℤ) ≤ f32Add s t) ∧
      f32Add s t ≤ ((k + 1 : ℕ) : ℚ) * 2 ^ 19 := by
  have hk' : (k : ℚ) ≤ 400 := by exact_mod_cast hk
  have hs30 : InR (-76) 30 s := by
    rcases hs with h | h
    · exact Or.inl h
    · refine Or.inr ⟨h, ?_⟩
      have : (2 : ℚ) ^ (30 : ℤ) = 2 ^ 30 := by norm_cast
      rw [this]
      nlinarith
  have hsum := hs30.add (ht.mono (le_refl _) (by norm_num : (18 : ℤ) ≤ 30))
  refine ⟨round_pos hsum (by norm_num) (by norm_num), ?_, ?_⟩
  · rcases hsum.round with h | ⟨h, -⟩
    · exact Or.inl h
    · exact Or.inr h
  · have h1 := f32Round_rel (s + t) hsum.nonneg
    have h2 := le_abs_self (f32Round (s + t) - (s + t))
    have h3 : t ≤ 2 ^ 18 := by
      have := ht.le
      have e : (2 : ℚ) ^ (18 : ℤ) = 2 ^ 18 := by norm_cast
      rwa [e] at this
    have h4 : s + t ≤ 401 * 2 ^ 19 := by nlinarith
    have h5 : (s + t) / 2 ^ 24 ≤ 2 ^ 18 := by
      rw [div_le_iff₀ (by norm_num)]
      norm_num
      norm_num at h4
      linarith
    unfold f32Add
    push_cast
    linarith

theorem sum_num (ts : List ℚ) (hts : ∀ t ∈ ts, InR (-76) 18 t) (k : ℕ) (hk : k + ts.length ≤ 400) (s : ℚ)
    (hs : s = 0 ∨ (2 : ℚ) ^ (-76 : ℤ) ≤ s) (hsk : s ≤ k * 2 ^ 19) :
    (ts.map F32.num).foldl F32.add (F32.num s) = F32.num (ts.foldl f32Add s) ∧ 0 ≤ ts.foldl f32Add s := by
  induction ts generalizing k s with
  | nil =>
    refine ⟨rfl, ?_⟩
    rcases hs with rfl | h
    · exact le_refl _
    · exact (two_zpow_pos _).le.trans h
  | cons t ts ih =>
    simp only [List.length_cons] at hk
    obtain ⟨h1, h2, h3⟩ := add_step k (by omega) s t hs hsk (hts t (by simp))
    simp only [List.map_cons, List.foldl_cons]
    rw [show F32.add (F32.num s) (F32.num t) = F32.round (s + t) from rfl, h1]
    exact ih (fun x hx => hts x (by simp [hx])) (k + 1) (by omega) _ h2 h3

/-- The distance of the program is that of the model. -/
theorem euclid32_num (c : List ℚ) (p : List ℕ) (hc : ∀ x ∈ c, Entry x) (hp : ∀ y ∈ p, y < 256) (hl : c.length ≤ 400) :
    euclid32 (c.map F32.num) p = F32.num (euclid c p) := by
  obtain ⟨ts, hts⟩ : ∃ ts : List ℚ, ts = (c.zip p).map fun q =>
      f32Mul (f32Round |q.1 - q.2|) (f32Round |q.1 - q.2|) := ⟨_, rfl⟩
  have hmem : ∀ q ∈ c.zip p, Entry q.1 ∧ q.2 < 256 := fun q hq =>
    ⟨hc _ (List.of_mem_zip hq).1, hp _ (List.of_mem_zip hq).2⟩
  have e1 : ((c.map F32.num).zip p).map (fun p => (p.1.sub (F32.ofNat p.2)).mul (p.1.sub (F32.ofNat p.2))) =
      ts.map F32.num := by
    rw [hts, List.zip_map_left, List.map_map, List.map_map]
    apply List.map_congr_left
    intro q hq
    exact (term_num q.1 (hmem q hq).1 q.2 (hmem q hq).2).1
  have e2 : (c.zip p).map (fun p =>
      let d := f32Round (if p.1 < f32OfNat p.2 then f32OfNat p.2 - p.1 else p.1 - f32OfNat p.2)
      f32Mul d d) = ts := by
    rw [hts]
    apply List.map_congr_left
    intro q hq
    have h2 := (hmem q hq).2
    dsimp only
    rw [f32OfNat_exact q.2 (by omega)]
    split
    · rename_i h
      rw [abs_of_neg (by linarith), neg_sub]
    · rename_i h
      rw [abs_of_nonneg (by linarith)]
  have hin : ∀ t ∈ ts, InR (-76) 18 t := by
    intro t ht
    rw [hts, List.mem_map] at ht
    obtain ⟨q, hq, rfl⟩ := ht
    exact (term_num q.1 (hmem q hq).1 q.2 (hmem q hq).2).2
  have hlen : ts.length ≤ 400 := by
    rw [hts]; simp; omega
  obtain ⟨s1, s2⟩ := sum_num ts hin 0 (by omega) 0 (Or.inl rfl) (by simp)
  unfold euclid32 euclid
  rw [e1, e2, s1, F32.sqrt, if_neg (not_lt.2 s2)]

theorem nearestLoop32_eq (p : List ℕ) (hp : ∀ y ∈ p, y < 256) (cs : List (List ℚ))
    (hc : ∀ c ∈ cs, c.length ≤ 400 ∧ ∀ x ∈ c, Entry x) (n : ℕ) (m : Option ℚ) (a : ℕ) :
    nearestLoop32 p (cs.map (List.map F32.num)) n (m.map F32.num) a = nearestLoop euclid p cs n m a := by
  induction cs generalizing n m a with
  | nil => simp [nearestLoop32, nearestLoop]
  | cons c cs ih =>
    have hc0 := hc c (by simp)
    have ih' := fun n m a => ih (fun x hx => hc x (by simp [hx])) n m a
    simp only [List.map_cons, nearestLoop32, nearestLoop, euclid32_num c p hc0.2 hp hc0.1]
    cases m with
    | none => exact ih' _ (some _) _
    | some m =>
      simp only [Option.map_some, F32.lt, decide_eq_true_eq]
      split
      · exact ih' _ (some _) _
      · exact ih' _ (some _) _

theorem assignAll32_eq (data : List (List ℕ)) (hd : ∀ p ∈ data, ∀ y ∈ p, y < 256) (cs : List (List ℚ))
    (hc : ∀ c ∈ cs, c.length ≤ 400 ∧ ∀ x ∈ c, Entry x) :
    assignAll32 data (cs.map (List.map F32.num)) = assignAll euclid data cs := by
  unfold assignAll32 assignAll
  apply List.map_congr_left
  intro p hp
  rw [show (none : Option F32) = (none : Option ℚ).map F32.num from rfl, nearestLoop32_eq p (hd p hp) cs hc]

/-- An entry of a centre that has taken in `k` points: near the mean of `k` counters. -/
def Running (k : ℕ) (x : ℚ) : Prop :=
  IsF32 x ∧ ∃ S : ℕ, S ≤ 255 * k ∧ Close (3 * k) x ((S : ℚ) / k)

theorem Running.entry {k : ℕ} (hk : k ≤ 25000) {x : ℚ} (h : Running k x) : Entry x := by
  obtain ⟨h1, S, hS, hc⟩ := h
  refine ⟨h1, ?_⟩
  obtain ⟨c1, c2, c3, c4⟩ := hc
  have hg : gfac ^ (3 * k) ≤ 1 + 1 / 100 :=
    gfac_bound (3 * k) 75000 (1 / 100) (by omega) (by norm_num) (by norm_num)
  rcases Nat.eq_zero_or_pos S with rfl | hpos
  · left
    simp at c3
    exact le_antisymm c3 c1
  have hk0 : 0 < k := by
    rcases Nat.eq_zero_or_pos k with rfl | h
    · omega
    · exact h
  have hkq : (0 : ℚ) < k := by exact_mod_cast hk0
  have hm : (S : ℚ) / k ≤ 255 := by
    rw [div_le_iff₀ hkq]
    exact_mod_cast hS
  have hm2 : 1 / 25000 ≤ (S : ℚ) / k := by
    rw [div_le_div_iff₀ (by norm_num) hkq, one_mul]
    have : k ≤ S * 25000 := by nlinarith
    exact_mod_cast this
  have a1 : x ≤ (1 + 1 / 100) * ((S : ℚ) / k) := c3.trans (mul_le_mul_of_nonneg_right hg c2)
  have a2 : (S : ℚ) / k ≤ (1 + 1 / 100) * x := c4.trans (mul_le_mul_of_nonneg_right hg c1)
  right
  constructor
  · have : (2 : ℚ) ^ (-15 : ℤ) = 1 / 32768 := by norm_num
    rw [this]
    linarith
  · have : (2 : ℚ) ^ (9 : ℤ) = 512 := by norm_num
    rw [this]
    linarith

theorem Running.zero : Running 0 0 :=
  ⟨⟨0, 0, by norm_num, by simp⟩, 0, by simp, by simpa using Close.refl (le_refl (0 : ℚ))⟩

theorem Running.step {k : ℕ} (hk : k + 1 ≤ 25000) {x : ℚ} (h : Running k x) (p : ℕ) (hp : p < 256) :
    (((F32.num x).mul (F32.ofNat k)).add (F32.ofNat p)).div ((F32.ofNat k).add (F32.num 1)) =
      F32.num (f32Div (f32Add (f32Mul x (f32OfNat k)) (f32OfNat p)) (f32Add (f32OfNat k) 1)) ∧
    Running (k + 1) (f32Div (f32Add (f32Mul x (f32OfNat k)) (f32OfNat p)) (f32Add (f32OfNat k) 1)) := by
  have hx := (h.entry (by omega)).2
  have hk1 : f32Add (k : ℚ) 1 = k + 1 := by
    have := f32Round_nat (k + 1) (by omega)
    push_cast at this
    exact this
  constructor
  · rw [ofNat_exact k (by omega), ofNat_exact p (by omega), f32OfNat_exact k (by omega), f32OfNat_exact p (by omega), hk1]
    have hkr : InR 0 15 (k : ℚ) := inR_nat k 15 (by omega)
    have hpr : InR 0 8 (p : ℚ) := inR_nat p 8 (by omega)
    have hm : InR (-15) 24 (x * k) := (hx.mul hkr).mono (by norm_num) (by norm_num)
    have ha : InR (-15) 25 (f32Mul x k + p) := by
      have := hm.round.add (hpr.mono (by norm_num : (-15 : ℤ) ≤ 0) (by norm_num : (8 : ℤ) ≤ 24))
      exact this.mono (le_refl _) (by norm_num)
    have hk2 : F32.add (F32.num k) (F32.num 1) = F32.num (k + 1) := by
      have h15 : InR 0 15 ((k + 1 : ℕ) : ℚ) := inR_nat (k + 1) 15 (by omega)
      have := round_pos h15 (by norm_num) (by norm_num)
      rw [f32Round_nat (k + 1) (by omega)] at this
      push_cast at this
      exact this
    rw [hk2]
    have hd : InR (-30) 25 (f32Add (f32Mul x k) p / (k + 1)) := by
      have h15 : ((k : ℚ) + 1) ≤ 2 ^ (15 : ℤ) := by
        have : (2 : ℚ) ^ (15 : ℤ) = 32768 := by norm_num
        rw [this]
        exact_mod_cast (by omega : k + 1 ≤ 32768)
      have h1 : (1 : ℚ) ≤ k + 1 := by
        have : (0 : ℚ) ≤ k := by positivity
        linarith
      exact (ha.round.div h1 h15).mono (by norm_num) (by norm_num)
    have e1 : F32.mul (F32.num x) (F32.num k) = F32.num (f32Mul x k) := round_pos hm (by norm_num) (by norm_num)
    have e2 : F32.add (F32.num (f32Mul x k)) (F32.num p) = F32.num (f32Add (f32Mul x k) p) :=
      round_pos ha (by norm_num) (by norm_num)
    rw [e1, e2, F32.div, if_neg (by positivity)]
    exact round_pos hd (by norm_num) (by norm_num)
  · obtain ⟨h1, S, hS, hc⟩ := h
    refine ⟨f32Round_isF32 _, S + p, by omega, ?_⟩
    have := updateEntry_close x _ k p (by omega) (by omega) hc
    have e : (((S : ℚ) / k) * k + p) / (k + 1) = ((S + p : ℕ) : ℚ) / ((k + 1 : ℕ) : ℚ) := by
      rcases Nat.eq_zero_or_pos k with rfl | hk0
      · have : S = 0 := by omega
        subst this
        simp
      · have hkq : (k : ℚ) ≠ 0 := by exact_mod_cast hk0.ne'
        rw [div_mul_cancel₀ _ hkq]
        push_cast
        rfl
    rw [e] at this
    exact this

theorem updateCenter32_eq (c : List ℚ) (k : ℕ) (hk : k + 1 ≤ 25000) (hc : ∀ x ∈ c, Running k x) (p : List ℕ)
    (hp : ∀ y ∈ p, y < 256) (hlen : c.length = p.length) :
    updateCenter32 (c.map F32.num) k p = (updateCenter c k p).map F32.num ∧ ∀ x ∈ updateCenter c k p, Running (k + 1) x := by
  unfold updateCenter32 updateCenter
  rw [← hlen, List.drop_length, List.append_nil, List.drop_of_length_le (by simp), List.append_nil]
  constructor
  · rw [List.zip_map_left, List.map_map, List.map_map]
    apply List.map_congr_left
    intro q hq
    exact ((hc _ (List.of_mem_zip hq).1).step hk q.2 (hp _ (List.of_mem_zip hq).2)).1
  · intro x hx
    obtain ⟨q, hq, rfl⟩ := List.mem_map.1 hx
    exact ((hc _ (List.of_mem_zip hq).1).step hk q.2 (hp _ (List.of_mem_zip hq).2)).2

/-- The update of the centres. -/
theorem updateLoop32_eq (d : ℕ) (l : List (List ℕ × UInt8)) (hl : ∀ x ∈ l, x.1.length = d ∧ ∀ y ∈ x.1, y < 256)
    (centers : List (List ℚ)) (sizes : List ℕ) (hd : ∀ c ∈ centers, c.length = d)
    (hs : sizes.length = centers.length) (hb : ∀ k ∈ sizes, k + l.length ≤ 25000)
    (hr : ∀ (j : ℕ) (c : List ℚ) (k : ℕ), centers[j]? = some c → sizes[j]? = some k → ∀ x ∈ c, Running k x) :
    (match updateLoop l centers sizes with
      | Res.ok out => updateLoop32 l (centers.map (List.map F32.num)) sizes = Res.ok (out.map (List.map F32.num)) ∧
          out.length = centers.length ∧ ∀ c ∈ out, c.length = d ∧ ∀ x ∈ c, Entry x
      | Res.err => updateLoop32 l (centers.map (List.map F32.num)) sizes = Res.err
      | Res.panic => updateLoop32 l (centers.map (List.map F32.num)) sizes = Res.panic
      | Res.div => updateLoop32 l (centers.map (List.map F32.num)) sizes = Res.div) := by
  induction l generalizing centers sizes with
  | nil =>
    simp only [updateLoop, updateLoop32]
    refine ⟨trivial, trivial, fun c hc => ⟨hd c hc, fun x hx => ?_⟩⟩
    obtain ⟨j, hj, rfl⟩ := List.getElem_of_mem hc
    have hj2 : j < sizes.length := by omega
    have hk := hb _ (List.getElem_mem hj2)
    exact (hr j _ _ (List.getElem?_eq_getElem hj) (List.getElem?_eq_getElem hj2) x hx).entry (by simpa using hk)
  | cons q l ih =>
    obtain ⟨p, a⟩ := q
    obtain ⟨hp1, hp2⟩ := hl (p, a) (by simp)
    simp only [List.length_cons] at hb
    by_cases ha : a.toNat < sizes.length
    · have ha2 : a.toNat < centers.length := by omega
      have ha3 : a.toNat < (centers.map (List.map F32.num)).length := by simpa using ha2
      have hk := hb _ (List.getElem_mem ha)
      obtain ⟨u1, u2⟩ := updateCenter32_eq centers[a.toNat] sizes[a.toNat] (by omega)
        (hr a.toNat _ _ (List.getElem?_eq_getElem ha2) (List.getElem?_eq_getElem ha)) p hp2
        (by rw [hd _ (List.getElem_mem ha2), hp1])
      have e1 : updateLoop ((p, a) :: l) centers sizes =
          updateLoop l (centers.set a.toNat (updateCenter centers[a.toNat] sizes[a.toNat] p))
            (sizes.set a.toNat (sizes[a.toNat] + 1)) := by
        simp only [updateLoop, idx, setIdx, List.getElem?_eq_getElem ha, List.getElem?_eq_getElem ha2, Res.ofOption_some,
          Res.ok_bind, if_pos ha, if_pos ha2]
      have e2 : updateLoop32 ((p, a) :: l) (centers.map (List.map F32.num)) sizes =
          updateLoop32 l ((centers.set a.toNat (updateCenter centers[a.toNat] sizes[a.toNat] p)).map (List.map F32.num))
            (sizes.set a.toNat (sizes[a.toNat] + 1)) := by
        simp only [updateLoop32, idx, setIdx, List.getElem?_eq_getElem ha, List.getElem?_eq_getElem ha3, Res.ofOption_some,
          Res.ok_bind, if_pos ha, if_pos ha3, List.getElem_map, u1, List.map_set]
      rw [e1, e2]
      have := ih (fun x hx => hl x (by simp [hx]))
        (centers.set a.toNat (updateCenter centers[a.toNat] sizes[a.toNat] p)) (sizes.set a.toNat (sizes[a.toNat] + 1))
        (by
          intro c hc
          rcases List.mem_or_eq_of_mem_set hc with h | rfl
          · exact hd c h
          · simp [updateCenter, hd _ (List.getElem_mem ha2), hp1])
        (by simpa using hs)
        (by
          intro k hk'
          rcases List.mem_or_eq_of_mem_set hk' with h | rfl
          · have := hb k h; omega
          · omega)
        (by
          intro j c k h1 h2 x hx
          rw [List.getElem?_set] at h1 h2
          split at h1
          · rename_i hj
            subst hj
            simp only [Option.some.injEq] at h1
            rw [if_pos rfl, if_pos ha, Option.some.injEq] at h2
            subst h1 h2
            exact u2 x hx
          · rename_i hj
            rw [if_neg hj] at h2
            exact hr j c k h1 h2 x hx)
      simpa only [List.length_set] using this
    · have e0 : sizes[a.toNat]? = none := List.getElem?_eq_none (by omega)
      simp [updateLoop, updateLoop32, idx, e0, Res.ofOption]

end Ribzip2
