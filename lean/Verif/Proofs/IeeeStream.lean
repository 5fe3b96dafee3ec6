import Verif.Proofs.Ieee
import Verif.Proofs.StreamGeneral
/- The bounded exponents of binary32 make no difference to the output. -/
namespace Ribzip2
open Spec

theorem lloyd32_eq (d nc : ℕ) (data : List (List ℕ)) (hd : ∀ p ∈ data, p.length = d ∧ ∀ y ∈ p, y < 256) (h400 : d ≤ 400)
    (hlen : data.length ≤ 25000) (it : ℕ) (centers : List (List ℚ)) (hc : centers.length = nc)
    (he : ∀ c ∈ centers, c.length = d ∧ ∀ x ∈ c, Entry x) (a : List UInt8) :
    (match lloyd euclid d nc data it centers a with
      | Res.ok (out, a') => lloyd32 d nc data it (centers.map (List.map F32.num)) a =
            Res.ok (out.map (List.map F32.num), a') ∧ ∀ c ∈ out, ∀ x ∈ c, Entry x
      | Res.err => lloyd32 d nc data it (centers.map (List.map F32.num)) a = Res.err
      | Res.panic => lloyd32 d nc data it (centers.map (List.map F32.num)) a = Res.panic
      | Res.div => lloyd32 d nc data it (centers.map (List.map F32.num)) a = Res.div) := by
  induction it generalizing centers a with
  | zero => exact ⟨rfl, fun c hc => (he c hc).2⟩
  | succ it ih =>
    have ha := assignAll32_eq data (fun p hp => (hd p hp).2) centers
      (fun c hc => ⟨by rw [(he c hc).1]; exact h400, (he c hc).2⟩)
    have hcl : (centers.map (List.map F32.num)).map (fun _ => List.replicate d (F32.num 0)) =
        (centers.map fun _ => List.replicate d (0 : ℚ)).map (List.map F32.num) := by
      simp [List.map_map, Function.comp_def]
    have hu := updateLoop32_eq d (data.zip (assignAll euclid data centers))
      (fun x hx => hd _ (List.of_mem_zip hx).1) (centers.map fun _ => List.replicate d (0 : ℚ)) (List.replicate nc 0)
      (by
        intro c hc
        obtain ⟨_, _, rfl⟩ := List.mem_map.1 hc
        simp)
      (by simp [hc])
      (by
        intro k hk
        rw [List.eq_of_mem_replicate hk]
        simp
        omega)
      (by
        intro j c k h1 h2 x hx
        rw [List.getElem?_map] at h1
        obtain ⟨_, _, rfl⟩ := Option.map_eq_some_iff.1 h1
        rw [List.eq_of_mem_replicate hx, List.eq_of_mem_replicate (List.mem_of_getElem? h2)]
        exact Running.zero)
    simp only [lloyd, lloyd32, ha, hcl]
    cases hr : updateLoop (data.zip (assignAll euclid data centers)) (centers.map fun _ => List.replicate d (0 : ℚ))
        (List.replicate nc 0) with
    | ok out =>
      rw [hr] at hu
      obtain ⟨u1, u2, u3⟩ := hu
      rw [u1, Res.ok_bind, Res.ok_bind]
      exact ih out (by simpa [hc] using u2) u3 _
    | err => rw [hr] at hu; rw [hu]; rfl
    | panic => rw [hr] at hu; rw [hu]; rfl
    | div => rw [hr] at hu; rw [hu]; rfl

theorem entry_nat (n : ℕ) (h : n < 256) : Entry (n : ℚ) :=
  ⟨⟨n, 0, by omega, by simp⟩, (inR_nat n 8 (by omega)).mono (by norm_num) (by norm_num)⟩

theorem initialCenters32_eq (data : List (List ℕ)) (hd : ∀ p ∈ data, ∀ y ∈ p, y < 256) (nc k : ℕ) :
    (match initialCenters data nc k with
      | Res.ok out => initialCenters32 data nc k = Res.ok (out.map (List.map F32.num)) ∧ ∀ c ∈ out, ∀ x ∈ c, Entry x
      | Res.err => initialCenters32 data nc k = Res.err
      | Res.panic => initialCenters32 data nc k = Res.panic
      | Res.div => initialCenters32 data nc k = Res.div) := by
  induction k with
  | zero => exact ⟨rfl, by simp⟩
  | succ k ih =>
    simp only [initialCenters, initialCenters32]
    cases hr : initialCenters data nc k with
    | ok out =>
      rw [hr] at ih
      obtain ⟨i1, i2⟩ := ih
      rw [i1, Res.ok_bind, Res.ok_bind]
      cases hp : idx data (k * data.length / nc) with
      | ok p =>
        have hpm : p ∈ data := by
          unfold idx at hp
          cases h : data[k * data.length / nc]? with
          | none => rw [h] at hp; simp [Res.ofOption] at hp
          | some q =>
            rw [h, Res.ofOption_some, Res.ok.injEq] at hp
            subst hp
            exact List.mem_of_getElem? h
        simp only [Res.ok_bind, Res.pure_eq]
        refine ⟨?_, ?_⟩
        · rw [List.map_append, List.map_singleton, List.map_map]
          congr 3
          apply List.map_congr_left
          intro y hy
          have := hd p hpm y hy
          rw [ofNat_exact y (by omega), Function.comp_apply, f32OfNat_exact y (by omega)]
        · intro c hc x hx
          rcases List.mem_append.1 hc with hc | hc
          · exact i2 c hc x hx
          · rw [List.mem_singleton] at hc
            subst hc
            obtain ⟨y, hy, rfl⟩ := List.mem_map.1 hx
            have := hd p hpm y hy
            rw [f32OfNat_exact y (by omega)]
            exact entry_nat y this
      | err => rfl
      | panic => rfl
      | div => rfl
    | err => rw [hr] at ih; rw [ih]; rfl
    | panic => rw [hr] at ih; rw [ih]; rfl
    | div => rw [hr] at ih; rw [ih]; rfl

/-- `(x * 10_000.0) as usize`. -/
theorem scaled_num (x : ℚ) (hx : Entry x) : ((F32.num x).mul (F32.num 10000)).toUsize = (f32Mul x 10000).floor.toNat := by
  have h1 : InR 0 14 (10000 : ℚ) := by
    right
    constructor <;> norm_num
  have h2 : InR (-15) 23 (x * 10000) := (hx.2.mul h1).mono (by norm_num) (by norm_num)
  have e : (F32.num x).mul (F32.num 10000) = F32.num (f32Mul x 10000) := round_pos h2 (by norm_num) (by norm_num)
  have h3 : f32Mul x 10000 ≤ 2 ^ (23 : ℤ) := h2.round.le
  rw [e, F32.toUsize]
  apply Nat.min_eq_left
  have h4 : (f32Mul x 10000).floor ≤ (8388608 : ℤ) := by
    rw [ratFloor]
    have : (f32Mul x 10000) ≤ ((8388608 : ℤ) : ℚ) := by
      refine h3.trans ?_
      norm_num
    exact_mod_cast (Int.floor_le _).trans this
  omega

/-- The clustering of the program is that of the model. -/
theorem kmeansSolve32_eq (d nc it : ℕ) (data : List (List ℕ)) (hd : ∀ p ∈ data, p.length = d ∧ ∀ y ∈ p, y < 256)
    (h400 : d ≤ 400) (hlen : data.length ≤ 25000) :
    kmeansSolve32 d data it nc = kmeansSolve euclid d data it nc := by
  have hi := initialCenters32_eq data (fun p hp => (hd p hp).2) nc nc
  unfold kmeansSolve32 kmeansSolve
  cases hr : initialCenters data nc nc with
  | ok out =>
    rw [hr] at hi
    obtain ⟨i1, i2⟩ := hi
    rw [i1, Res.ok_bind, Res.ok_bind]
    have hshape : out.length = nc ∧ ∀ c ∈ out, c.length = d := by
      by_cases hne : data = []
      · subst hne
        cases nc with
        | zero =>
          simp only [initialCenters, Res.ok.injEq] at hr
          subst hr
          exact ⟨rfl, by simp⟩
        | succ nc =>
          simp only [initialCenters] at hr
          obtain ⟨_, _, h⟩ := bind_eq_ok hr
          simp [idx, Res.ofOption] at h
      · obtain ⟨c, c1, c2, c3⟩ := initialCenters_ok data d nc (fun p hp => (hd p hp).1) hne nc (Nat.le_refl _)
        rw [hr, Res.ok.injEq] at c1
        subst c1
        exact ⟨c2, c3⟩
    have hl := lloyd32_eq d nc data hd h400 hlen it out hshape.1 (fun c hc => ⟨hshape.2 c hc, i2 c hc⟩)
      (List.replicate data.length 0)
    cases hr2 : lloyd euclid d nc data it out (List.replicate data.length 0) with
    | ok r =>
      obtain ⟨o, a⟩ := r
      rw [hr2] at hl
      obtain ⟨l1, l2⟩ := hl
      rw [l1, Res.ok_bind, Res.ok_bind]
      simp only [Res.pure_eq, Res.ok.injEq, Prod.mk.injEq, and_true, List.map_map]
      apply List.map_congr_left
      intro c hc
      rw [Function.comp_apply, List.map_map]
      apply List.map_congr_left
      intro x hx
      exact scaled_num x (l2 c hc x hx)
    | err => rw [hr2] at hl; rw [hl]; rfl
    | panic => rw [hr2] at hl; rw [hl]; rfl
    | div => rw [hr2] at hl; rw [hl]; rfl
  | err => rw [hr] at hi; rw [hi]; rfl
  | panic => rw [hr] at hi; rw [hi]; rfl
  | div => rw [hr] at hi; rw [hi]; rfl

/-- `(symbol_count as f32 / 50.0).ceil() as usize`. -/
theorem finalize32_eq (s : SingleMap) (h : s.symbolCount ≤ 2 ^ 20) : s.finalize32 = s.finalize := by
  have h1 : InR 0 20 (f32OfNat s.symbolCount) := (inR_nat s.symbolCount 20 h).round
  have h2 : InR (-6) 20 (f32OfNat s.symbolCount / 50) :=
    (h1.div (c := 6) (by norm_num) (by norm_num)).mono (by norm_num) (le_refl _)
  have h3 : f32Div (f32OfNat s.symbolCount) 50 ≤ 2 ^ (20 : ℤ) := h2.round.le
  unfold SingleMap.finalize32 SingleMap.finalize
  rw [ofNat_num s.symbolCount 20 (by norm_num) h]
  have e : (F32.num (f32OfNat s.symbolCount)).div (F32.num 50) = F32.num (f32Div (f32OfNat s.symbolCount) 50) := by
    rw [F32.div, if_neg (by norm_num)]
    exact round_pos h2 (by norm_num) (by norm_num)
  rw [e, F32.ceil, F32.toUsize]
  congr 3
  have h4 : (f32Div (f32OfNat s.symbolCount) 50).ceil ≤ (1048576 : ℤ) := by
    rw [ratCeil, Int.ceil_le]
    refine h3.trans ?_
    norm_num
  rw [ratFloor, Int.floor_intCast]
  apply Nat.min_eq_left
  omega

theorem reportAll_congr {σ : Type} (r1 r2 : SymbolReporter σ) (h : r1.report = r2.report) (s : σ) (l : List ZleSymbol) :
    reportAll r1 s l = reportAll r2 s l := by
  induction l generalizing s with
  | nil => rfl
  | cons x l ih =>
    simp only [reportAll, h]
    congr 1
    funext s'
    exact ih s'

theorem single_count (l : List ZleSymbol) (s s' : SingleMap) (h : reportAll singleReporter s l = Res.ok s') :
    s'.symbolCount = s.symbolCount + l.length := by
  induction l generalizing s with
  | nil =>
    simp only [reportAll, Res.ok.injEq] at h
    subst h; rfl
  | cons x l ih =>
    rw [reportAll] at h
    obtain ⟨s1, k1, k2⟩ := bind_eq_ok h
    have := ih s1 k2
    simp only [singleReporter, SingleMap.report] at k1
    obtain ⟨c, _, k3⟩ := bind_eq_ok k1
    obtain ⟨fs, _, k4⟩ := bind_eq_ok k3
    simp only [Res.pure_eq, Res.ok.injEq] at k4
    subst k4
    simp at this ⊢
    omega

theorem generateBlockData32_eq (strategy : Strategy) (crc : BitVec 32) (rle : List UInt8) (hne : rle ≠ [])
    (hlen : rle.length + 1 < 2 ^ 20) : generateBlockData32 strategy crc rle = generateBlockData euclid strategy crc rle := by
  obtain ⟨last, ptr, b1, b2, b3⟩ := C30_bwt_never_fails rle hne
  obtain ⟨enc, m1, m2, m3, m4⟩ := mtf_spec last
  have hlast : last.length = rle.length := b2.length_eq
  have hlne : last ≠ [] := by intro h; rw [h] at hlast; exact hne (List.length_eq_zero_iff.1 hlast.symm)
  have hun : 1 ≤ (usedBytes last).length := by
    obtain ⟨x, hx⟩ := List.exists_mem_of_ne_nil last hlne
    exact List.length_pos_of_mem (mem_usedBytes.2 hx)
  have hun2 := usedBytes_length last
  generalize hused : usedBytes last = used at *
  have hz := zleEncode_symOk _ hun enc m4
  have hsym : ∀ s ∈ zleEncode 0 enc ++ [ZleSymbol.runA], symbolIndex s ≤ used.length := by
    intro s hs
    rcases List.mem_append.1 hs with hs | hs
    · exact (hz s hs).1
    · simp at hs; subst hs; simp [symbolIndex]
  have hzl := zleEncode_length 0 enc
  simp only [generateBlockData32, generateBlockData, b1, Res.ok_bind, m1, hused]
  suffices h : zleWithStrategy32 strategy enc used.length = zleWithStrategy euclid strategy enc used.length by rw [h]
  cases strategy with
  | single =>
    simp only [zleWithStrategy32, zleWithStrategy, zleTransform_eq]
    rw [reportAll_congr ⟨SingleMap.report, SingleMap.finalize32⟩ singleReporter rfl]
    cases hr : reportAll singleReporter (SingleMap.create used.length) (zleEncode 0 enc ++ [ZleSymbol.runA]) with
    | ok s =>
      have := single_count _ _ _ hr
      simp only [Res.ok_bind, singleReporter]
      rw [finalize32_eq s (by rw [this]; simp [SingleMap.create]; omega)]
    | err => rfl
    | panic => rfl
    | div => rfl
  | blockWise nc it =>
    simp only [zleWithStrategy32, zleWithStrategy, zleTransform_eq]
    rw [reportAll_congr ⟨BlockWiseMap.report, BlockWiseMap.finalize32 nc it⟩ (blockWiseReporter euclid nc it) rfl]
    obtain ⟨m, h1, h2⟩ := blockWise_reportAll euclid nc it used.length 0 (zleEncode 0 enc ++ [ZleSymbol.runA]) hsym
      (BlockWiseMap.create used.length) (BlockWiseMap.ok_create used.length)
    have hcnt := counts_reportAll euclid nc it used.length _ hsym [] _ m (BlockWiseMap.counts_create _) h1
    rw [List.nil_append] at hcnt
    have hdat := counts_data _ _ _ hcnt
    rw [List.map_append, List.map_singleton, show symbolIndex ZleSymbol.runA = 0 from rfl] at hdat
    obtain ⟨gl, gf⟩ := groupCounts_facts (used.length + 1) ((zleEncode 0 enc).map symbolIndex ++ [0])
    rw [List.length_append, List.length_map, List.length_singleton] at gl
    rw [h1, Res.ok_bind, Res.ok_bind]
    simp only [blockWiseReporter, BlockWiseMap.finalize32, BlockWiseMap.finalize, h2.size, hdat]
    rw [kmeansSolve32_eq (used.length + 1) nc it _
      (fun p hp => ⟨(gf p hp).1, fun y hy => by have := (gf p hp).2 y hy; omega⟩) (by omega) (by omega)]

end Ribzip2
