import Verif.Model.StepsBlock
import Verif.Proofs.Steps
import Verif.Proofs.Depth
import Verif.Proofs.BlockWise
/- Compressing a block takes linear time: every counted function computes what the function of the model computes, in a
bounded number of steps. -/
namespace Ribzip2
open Spec Cost

/-- `x` returns `a` after at most `B` steps. -/
def RunsIn {α : Type} (x : Cost α) (a : α) (B : Nat) : Prop := ∃ k, k ≤ B ∧ x.run = Res.ok (a, k)

theorem runs_pure {α : Type} (a : α) : RunsIn (pure a : Cost α) a 0 := ⟨0, Nat.le_refl _, rfl⟩

theorem runs_bind {α β : Type} {x : Cost α} {f : α → Cost β} {a : α} {b : β} {A B : Nat} (hx : RunsIn x a A)
    (hf : RunsIn (f a) b B) : RunsIn (x >>= f) b (A + B) := by
  obtain ⟨k, k1, k2⟩ := hx
  obtain ⟨l, l1, l2⟩ := hf
  refine ⟨k + l, by omega, ?_⟩
  show Res.bind x.run _ = _
  rw [k2]
  show Res.bind (f a).run _ = _
  rw [l2]
  rfl

theorem runs_tick (n : Nat) : RunsIn (tick n) () n := ⟨n, Nat.le_refl _, rfl⟩

theorem runs_lift {α : Type} {r : Res α} {a : α} (h : r = Res.ok a) : RunsIn (lift r) a 0 := by
  subst h
  exact ⟨0, Nat.le_refl _, rfl⟩

theorem RunsIn.mono {α : Type} {x : Cost α} {a : α} {A B : Nat} (h : RunsIn x a A) (hAB : A ≤ B) : RunsIn x a B := by
  obtain ⟨k, k1, k2⟩ := h
  exact ⟨k, by omega, k2⟩

theorem runs_ticked {α : Type} {x : Cost α} {a : α} {n B : Nat} (h : RunsIn x a B) :
    RunsIn (tick n >>= fun _ => x) a (n + B) := runs_bind (runs_tick n) h

theorem sortC_runs {α : Type} (le : α → α → Bool) (l : List α) :
    RunsIn (sortC le l) (stableSort le l) (l.length * l.length) :=
  (runs_ticked (runs_pure _)).mono (by omega)

/-! ### mtf.rs -/

theorem findPosC_runs (i : UInt8) (ds : List UInt8) (p : Nat) (q : UInt8) (h : findPos i ds p = Res.ok q) :
    RunsIn (findPosC i ds p) q ds.length := by
  induction ds generalizing p with
  | nil => simp [findPos] at h
  | cons d ds ih =>
    rw [findPos] at h
    refine RunsIn.mono (A := 1 + ds.length) (runs_ticked ?_) (by simp; omega)
    by_cases hd : d = i
    · rw [if_pos hd] at h
      simp only [Res.ok.injEq] at h
      rw [if_pos hd, h]
      exact (runs_pure _).mono (by omega)
    · rw [if_neg hd] at h
      rw [if_neg hd]
      exact ih _ h

theorem bringToFrontC_runs (p : Nat) (dict dict' : List UInt8) (h : bringToFront p dict = Res.ok dict') :
    RunsIn (bringToFrontC p dict) dict' dict.length := (runs_ticked (runs_lift h)).mono (by omega)

theorem bringToFront_length (p : Nat) (dict dict' : List UInt8) (h : bringToFront p dict = Res.ok dict') :
    dict'.length = dict.length := by
  unfold bringToFront idx at h
  obtain ⟨el, h1, h2⟩ := bind_is_ok.1 h
  have hp : p < dict.length := by
    by_contra hc
    rw [List.getElem?_eq_none (by omega)] at h1
    simp at h1
  simp only [Res.pure_eq, Res.ok.injEq] at h2
  subst h2
  simp [List.length_eraseIdx, hp]
  omega

theorem mtfLoopC_runs (input dict enc : List UInt8) (h : mtfLoop input dict = Res.ok enc) :
    RunsIn (mtfLoopC input dict) enc (input.length * (1 + 2 * dict.length)) := by
  induction input generalizing dict enc with
  | nil =>
    simp only [mtfLoop, Res.ok.injEq] at h
    subst h
    exact (runs_pure _).mono (by omega)
  | cons v input ih =>
    rw [mtfLoop] at h
    obtain ⟨pos, h1, h2⟩ := bind_is_ok.1 h
    obtain ⟨dict', h3, h4⟩ := bind_is_ok.1 h2
    obtain ⟨out, h5, h6⟩ := bind_is_ok.1 h4
    simp only [Res.pure_eq, Res.ok.injEq] at h6
    subst h6
    have hl := bringToFront_length _ _ _ h3
    refine RunsIn.mono (A := 1 + (dict.length + (dict.length + (input.length * (1 + 2 * dict'.length) + 0))))
      (runs_ticked (runs_bind (findPosC_runs _ _ _ _ h1) (runs_bind (bringToFrontC_runs _ _ _ h3)
        (runs_bind (ih _ _ h5) (runs_pure _))))) ?_
    rw [hl, List.length_cons, Nat.add_mul]
    omega

/-- `mtf` of a string with `u` different bytes. -/
theorem mtfC_runs (input enc used : List UInt8) (h : mtf input = Res.ok (enc, used)) (u : Nat)
    (hu : (usedBytes input).length = u) :
    RunsIn (mtfC input) (enc, used) (input.length * (2 + 2 * u) + (512 + u + u * u)) := by
  rw [mtf] at h
  have hc : createDict input = (stableSort (fun a b => decide (a ≤ b)) (usedSymbols input), usedSymbols input) := rfl
  rw [hc] at h
  dsimp only at h
  obtain ⟨e, h1, h2⟩ := bind_is_ok.1 h
  simp only [Res.pure_eq, Res.ok.injEq, Prod.mk.injEq] at h2
  obtain ⟨rfl, rfl⟩ := h2
  have hU : (usedSymbols input).length = u := by rw [usedSymbols_eq, hu]
  have hS : (stableSort (fun a b => decide (a ≤ b)) (usedSymbols input)).length = u := by
    rw [(stableSort_perm _ _).length_eq, hU]
  have hd : RunsIn (createDictC input) (stableSort (fun a b => decide (a ≤ b)) (usedSymbols input), usedSymbols input)
      ((256 + input.length + 256) + (u + (u * u + 0))) := by
    unfold createDictC
    refine runs_ticked ?_
    dsimp only
    rw [hU]
    refine runs_ticked (runs_bind ?_ (runs_pure _))
    have := sortC_runs (fun a b : UInt8 => decide (a ≤ b)) (usedSymbols input)
    rw [hU] at this
    exact this
  refine RunsIn.mono (A := ((256 + input.length + 256) + (u + (u * u + 0))) + (input.length * (1 + 2 * u) + 0))
    (runs_bind hd (runs_bind ?_ (runs_pure _))) ?_
  · have := mtfLoopC_runs input _ e h1
    rw [hS] at this
    exact this
  · have : input.length * (2 + 2 * u) = input.length + input.length * (1 + 2 * u) := by ring
    omega

/-! ### zle.rs -/

theorem zeroDigitsC_runs (fuel num : Nat) :
    RunsIn (zeroDigitsC fuel num) (zeroDigits fuel num) fuel ∧ (zeroDigits fuel num).length ≤ fuel := by
  induction fuel generalizing num with
  | zero => exact ⟨runs_pure _, Nat.le_refl _⟩
  | succ fuel ih =>
    obtain ⟨h1, h2⟩ := ih (num / 2)
    unfold zeroDigits zeroDigitsC
    split
    · refine ⟨RunsIn.mono (A := 1 + (fuel + 0)) (runs_ticked (runs_bind h1 (runs_pure _))) (by omega), ?_⟩
      simpa using h2
    · exact ⟨(runs_pure _).mono (by omega), by simp⟩

theorem encodeZeroAmountC_runs (z : Nat) :
    RunsIn (encodeZeroAmountC z) (encodeZeroAmount z) (2 * (z + 1)) ∧ (encodeZeroAmount z).length ≤ z := by
  obtain ⟨h1, h2⟩ := zeroDigitsC_runs (z + 1) (z + 1)
  refine ⟨RunsIn.mono (A := (z + 1) + ((zeroDigits (z + 1) (z + 1)).length + 0))
    (runs_bind h1 (runs_ticked (runs_pure _))) (by omega), ?_⟩
  rw [encodeZeroAmount, List.length_dropLast]
  omega

/-- A counted reporter for a reporter: as long as `I` holds, reporting takes at most `R` steps. -/
def ReportsIn {σ : Type} (rep : SymbolReporter σ) (repC : SymbolReporterC σ) (I : σ → Prop) (R : Nat) : Prop :=
  ∀ s x s', I s → rep.report s x = Res.ok s' → I s' ∧ RunsIn (repC.report s x) s' R

theorem reportAllC_runs {σ : Type} {rep : SymbolReporter σ} {repC : SymbolReporterC σ} {I : σ → Prop} {R : Nat}
    (hR : ReportsIn rep repC I R) (xs : List ZleSymbol) (s s' : σ) (hs : I s)
    (h : reportAll rep s xs = Res.ok s') : I s' ∧ RunsIn (reportAllC repC s xs) s' (xs.length * (1 + R)) := by
  induction xs generalizing s with
  | nil =>
    simp only [reportAll, Res.ok.injEq] at h
    subst h
    exact ⟨hs, (runs_pure _).mono (by omega)⟩
  | cons x xs ih =>
    rw [reportAll] at h
    obtain ⟨s1, h1, h2⟩ := bind_is_ok.1 h
    obtain ⟨k1, k2⟩ := hR s x s1 hs h1
    obtain ⟨k3, k4⟩ := ih s1 k1 h2
    refine ⟨k3, RunsIn.mono (A := 1 + (R + xs.length * (1 + R))) (runs_ticked (runs_bind k2 k4)) ?_⟩
    rw [List.length_cons, Nat.succ_mul]
    omega

theorem flushZerosC_runs {σ : Type} {rep : SymbolReporter σ} {repC : SymbolReporterC σ} {I : σ → Prop} {R : Nat}
    (hR : ReportsIn rep repC I R) (z : Nat) (result : List ZleSymbol) (s : σ) (r : List ZleSymbol × σ) (hs : I s)
    (h : (if z > 0 then reportAll rep s (encodeZeroAmount z) >>= fun s' => Res.ok (result ++ encodeZeroAmount z, s')
      else Res.ok (result, s)) = Res.ok r) :
    I r.2 ∧ RunsIn (flushZerosC repC z result s) r (z * (7 + R)) := by
  unfold flushZerosC
  split at h
  · rename_i hz
    rw [if_pos hz]
    obtain ⟨s1, h1, h2⟩ := bind_is_ok.1 h
    simp only [Res.ok.injEq] at h2
    subst h2
    obtain ⟨e1, e2⟩ := encodeZeroAmountC_runs z
    obtain ⟨k1, k2⟩ := reportAllC_runs hR _ s s1 hs h1
    refine ⟨k1, RunsIn.mono (A := 2 * (z + 1) + (2 * (encodeZeroAmount z).length
      + ((encodeZeroAmount z).length * (1 + R) + 0))) (runs_bind e1 (runs_ticked (runs_bind k2 (runs_pure _)))) ?_⟩
    have h3 : (encodeZeroAmount z).length * (1 + R) ≤ z * (1 + R) := Nat.mul_le_mul_right _ e2
    rw [show 7 + R = 6 + (1 + R) by omega, Nat.mul_add z]
    omega
  · rename_i hz
    rw [if_neg hz]
    simp only [Res.ok.injEq] at h
    subst h
    exact ⟨hs, (runs_pure _).mono (by omega)⟩

theorem zleLoopC_runs {σ : Type} {rep : SymbolReporter σ} {repC : SymbolReporterC σ} {I : σ → Prop} {R : Nat}
    (hR : ReportsIn rep repC I R) (input : List UInt8) (z : Nat) (result : List ZleSymbol) (s : σ)
    (r : List ZleSymbol × σ) (hs : I s) (h : zleLoop rep input z result s = Res.ok r) :
    I r.2 ∧ RunsIn (zleLoopC repC input z result s) r (input.length * (8 + R) + z * (7 + R)) := by
  induction input generalizing z result s with
  | nil =>
    rw [zleLoop] at h
    obtain ⟨k1, k2⟩ := flushZerosC_runs hR z result s r hs h
    exact ⟨k1, k2.mono (by simp)⟩
  | cons i input ih =>
    rw [zleLoop] at h
    by_cases hi : i = 0
    · rw [if_pos hi] at h
      obtain ⟨k1, k2⟩ := ih (z + 1) result s hs h
      refine ⟨k1, RunsIn.mono (A := 1 + (input.length * (8 + R) + (z + 1) * (7 + R))) (runs_ticked ?_) ?_⟩
      · rw [if_pos hi]
        exact k2
      · rw [List.length_cons, Nat.succ_mul, Nat.succ_mul]
        omega
    · rw [if_neg hi] at h
      have h0 : ((if z > 0 then reportAll rep s (encodeZeroAmount z) >>= fun s' => Res.ok (result ++ encodeZeroAmount z, s')
          else Res.ok (result, s)) >>= fun x => rep.report x.2 (ZleSymbol.number i) >>= fun s =>
            zleLoop rep input 0 (x.1 ++ [ZleSymbol.number i]) s) = Res.ok r := by
        rw [← h]
        split <;> simp
      obtain ⟨p, h1, h2⟩ := bind_is_ok.1 h0
      obtain ⟨k1, k2⟩ := flushZerosC_runs hR z result s p hs h1
      obtain ⟨res1, s1⟩ := p
      obtain ⟨s2, h3, h4⟩ := bind_is_ok.1 h2
      obtain ⟨k3, k4⟩ := hR s1 _ s2 k1 h3
      obtain ⟨k5, k6⟩ := ih 0 _ s2 k3 h4
      refine ⟨k5, RunsIn.mono (A := 1 + (z * (7 + R) + (R + (input.length * (8 + R) + 0 * (7 + R))))) (runs_ticked ?_) ?_⟩
      · rw [if_neg hi]
        exact runs_bind k2 (runs_bind k4 k6)
      · rw [List.length_cons, Nat.succ_mul]
        omega

theorem zleTransformC_runs {σ : Type} {rep : SymbolReporter σ} {repC : SymbolReporterC σ} {I : σ → Prop} {R : Nat}
    (hR : ReportsIn rep repC I R) (s0 : σ) (input : List UInt8) (hs : I s0) (F : ReportedSymbols → Nat)
    (hF : ∀ s r, I s → rep.finalize s = Res.ok r → reportAll rep s0 (zleEncode 0 input ++ [ZleSymbol.runA]) = Res.ok s →
      RunsIn (repC.finalize s) r (F r))
    (out : List ZleSymbol × ReportedSymbols) (h : zleTransform rep s0 input = Res.ok out) :
    RunsIn (zleTransformC repC s0 input) out (input.length * (8 + R) + R + F out.2) := by
  have h' := h
  rw [zleTransform_eq] at h'
  obtain ⟨sf, f1, f2⟩ := bind_is_ok.1 h'
  rw [zleTransform] at h
  obtain ⟨p, h1, h2⟩ := bind_is_ok.1 h
  obtain ⟨res, s1⟩ := p
  dsimp only at h2
  obtain ⟨s2, h3, h4⟩ := bind_is_ok.1 h2
  obtain ⟨r, h5, h6⟩ := bind_is_ok.1 h4
  simp only [Res.pure_eq, Res.ok.injEq] at h6
  subst h6
  obtain ⟨k1, k2⟩ := zleLoopC_runs hR input 0 [] s0 _ hs h1
  obtain ⟨k3, k4⟩ := hR s1 _ s2 k1 h3
  have hse : s2 = sf := by
    rw [zleLoop_eq] at h1
    obtain ⟨s3, g1, g2⟩ := bind_is_ok.1 h1
    simp only [Res.ok.injEq, Prod.mk.injEq] at g2
    rw [reportAll_append, g1, Res.ok_bind, reportAll, g2.2, h3] at f1
    simpa [reportAll] using f1
  refine RunsIn.mono (A := (input.length * (8 + R) + 0 * (7 + R)) + (R + (F r + 0)))
    (runs_bind k2 (runs_bind k4 (runs_bind (hF s2 r k3 h5 (hse ▸ f1)) (runs_pure _)))) (by dsimp only; omega)

end Ribzip2
