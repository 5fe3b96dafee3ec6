import Verif.Proofs.StepsBlock
import Mathlib.Tactic.Ring
/- The number of steps it takes to collect the statistics of a block. -/
namespace Ribzip2
open Spec Cost

theorem idx_lt {α : Type} {l : List α} {i : Nat} {a : α} (h : idx l i = Res.ok a) : i < l.length := by
  unfold idx at h
  by_contra hc
  rw [List.getElem?_eq_none (by omega)] at h
  simp at h

theorem setIdx_length {α : Type} {l l' : List α} {i : Nat} {a : α} (h : setIdx l i a = Res.ok l') :
    l'.length = l.length := by
  unfold setIdx at h
  split at h
  · simp only [Res.ok.injEq] at h
    subst h
    simp
  · simp at h

/-! ### One table -/

theorem single_reportsIn (n : Nat) :
    ReportsIn singleReporter singleReporterC (fun s => s.frequencies.length = n + 1) 1 := by
  intro s x s' hs h
  refine ⟨?_, (runs_ticked (runs_lift h)).mono (by omega)⟩
  simp only [singleReporter, SingleMap.report] at h
  obtain ⟨c, h1, h2⟩ := bind_is_ok.1 h
  obtain ⟨fs, h3, h4⟩ := bind_is_ok.1 h2
  simp only [Res.pure_eq, Res.ok.injEq] at h4
  subst h4
  show fs.length = n + 1
  rw [setIdx_length h3, hs]

theorem singleZle_runs (dist : Distance) (n : Nat) (d : List UInt8) (out : List ZleSymbol × ReportedSymbols)
    (h : zleWithStrategy dist Strategy.single d n = Res.ok out) :
    RunsIn (zleWithStrategyC dist Strategy.single d n) out
      (9 * d.length + 3 * (n + 1) + 1 + out.2.selectors.length) := by
  have h1 := zleTransformC_runs (single_reportsIn n) (SingleMap.create n) d (by simp [SingleMap.create])
    (fun r => 2 * (n + 1) + r.selectors.length)
    (fun s r hs hf _ => by
      refine RunsIn.mono (runs_bind (runs_lift hf) (runs_ticked (runs_pure _))) ?_
      rw [show s.frequencies.length = n + 1 from hs]
      omega) out h
  refine RunsIn.mono (runs_ticked (n := n + 1) h1) ?_
  omega

/-! ### k-means -/

theorem nearestLoopC_runs (dist : Distance) (point : List Nat) (centers : List (List Rat)) (i : Nat) (m : Option Rat)
    (a : Nat) : RunsIn (nearestLoopC dist point centers i m a) (nearestLoop dist point centers i m a)
      (centers.length * (1 + point.length)) := by
  induction centers generalizing i m a with
  | nil => exact (runs_pure _).mono (by omega)
  | cons c centers ih =>
    rw [nearestLoopC]
    refine RunsIn.mono (A := (1 + point.length) + centers.length * (1 + point.length)) (runs_ticked ?_) ?_
    · cases m with
      | none => exact ih _ _ _
      | some m =>
        unfold nearestLoop
        dsimp only
        split
        · exact ih _ _ _
        · exact ih _ _ _
    · rw [List.length_cons, Nat.add_mul centers.length 1]
      omega

theorem assignAllC_runs (dist : Distance) (d nc : Nat) (centers : List (List Rat)) (hc : centers.length = nc)
    (data : List (List Nat)) (hdata : ∀ p ∈ data, p.length = d) :
    RunsIn (assignAllC dist centers data) (assignAll dist data centers) (data.length * (1 + nc * (1 + d))) := by
  induction data with
  | nil => exact (runs_pure _).mono (by omega)
  | cons p data ih =>
    have h1 := nearestLoopC_runs dist p centers 0 none 0
    rw [hdata p (by simp), hc] at h1
    rw [assignAllC]
    refine RunsIn.mono (runs_ticked (runs_bind h1 (runs_bind (ih fun x hx => hdata x (by simp [hx])) (runs_pure _)))) ?_
    rw [List.length_cons, Nat.add_mul data.length 1]
    omega

theorem updateLoopC_runs (d : Nat) (l : List (List Nat × UInt8)) (hl : ∀ x ∈ l, x.1.length = d)
    (centers : List (List Rat)) (sizes : List Nat) (out : List (List Rat))
    (h : updateLoop l centers sizes = Res.ok out) : RunsIn (updateLoopC l centers sizes) out (l.length * (1 + d)) := by
  induction l generalizing centers sizes with
  | nil =>
    simp only [updateLoop, Res.ok.injEq] at h
    subst h
    exact (runs_pure _).mono (by omega)
  | cons x l ih =>
    obtain ⟨p, a⟩ := x
    rw [updateLoop] at h
    obtain ⟨s, h1, h⟩ := bind_is_ok.1 h
    obtain ⟨c, h2, h⟩ := bind_is_ok.1 h
    obtain ⟨cs, h3, h⟩ := bind_is_ok.1 h
    obtain ⟨ss, h4, h⟩ := bind_is_ok.1 h
    have hp := hl (p, a) (by simp)
    dsimp only at hp
    rw [updateLoopC]
    refine RunsIn.mono (runs_ticked (runs_bind (runs_lift h1) (runs_bind (runs_lift h2) (runs_bind (runs_lift h3)
      (runs_bind (runs_lift h4) (ih (fun x hx => hl x (by simp [hx])) _ _ h)))))) ?_
    rw [List.length_cons, Nat.add_mul l.length 1]
    omega

theorem lloydC_runs (dist : Distance) (d nc : Nat) (hnc : 1 ≤ nc) (data : List (List Nat))
    (hdata : ∀ p ∈ data, p.length = d) (it : Nat) (centers : List (List Rat)) (hc : centers.length = nc)
    (a : List UInt8) (out : List (List Rat) × List UInt8) (h : lloyd dist d nc data it centers a = Res.ok out) :
    RunsIn (lloydC dist d nc data it centers a) out (it * ((data.length + 1) * ((nc + 1) * (d + 2)))) := by
  induction it generalizing centers a with
  | zero =>
    simp only [lloyd, Res.ok.injEq] at h
    subst h
    exact (runs_pure _).mono (by omega)
  | succ it ih =>
    rw [lloyd] at h
    obtain ⟨c, h1, h2⟩ := bind_is_ok.1 h
    obtain ⟨a1, a2⟩ := assignAll_ok dist data centers nc hnc hc
    have hz : ∀ x ∈ data.zip (assignAll dist data centers), x.1.length = d := fun x hx => hdata _ (List.of_mem_zip hx).1
    obtain ⟨c', k1, k2, -⟩ := updateLoop_ok d nc (data.zip (assignAll dist data centers))
      (fun x hx => ⟨hz x hx, a2 _ (List.of_mem_zip hx).2⟩)
      (centers.map fun _ => List.replicate d (0 : Rat)) (by simpa using hc)
      (by
        intro c hc
        obtain ⟨x, -, rfl⟩ := List.mem_map.1 hc
        simp)
      (List.replicate nc 0) (by simp)
    rw [h1, Res.ok.injEq] at k1
    subst k1
    have r1 := assignAllC_runs dist d nc centers hc data hdata
    have r2 := updateLoopC_runs d _ hz _ _ _ h1
    have r3 := ih c k2 _ h2
    rw [lloydC]
    refine RunsIn.mono (runs_ticked (runs_bind r1 (runs_ticked (runs_bind r2 r3)))) ?_
    have hzl : (data.zip (assignAll dist data centers)).length = data.length := by simp [a1]
    rw [hzl, hc]
    have e1 : (it + 1) * ((data.length + 1) * ((nc + 1) * (d + 2)))
        = it * ((data.length + 1) * ((nc + 1) * (d + 2))) + (1 + data.length * (1 + nc * (1 + d)) + (nc * (1 + d) + nc)
          + data.length * (1 + d)) + (data.length * nc + d + 1) := by ring
    omega

theorem initialCentersC_runs (data : List (List Nat)) (d nc : Nat) (hdata : ∀ p ∈ data, p.length = d) (k : Nat)
    (out : List (List Rat)) (h : initialCenters data nc k = Res.ok out) :
    RunsIn (initialCentersC data nc k) out (k * (1 + d)) := by
  induction k generalizing out with
  | zero =>
    simp only [initialCenters, Res.ok.injEq] at h
    subst h
    exact (runs_pure _).mono (by omega)
  | succ k ih =>
    rw [initialCenters] at h
    obtain ⟨prev, h1, h2⟩ := bind_is_ok.1 h
    obtain ⟨p, h3, h4⟩ := bind_is_ok.1 h2
    simp only [Res.pure_eq, Res.ok.injEq] at h4
    subst h4
    have hp : p.length = d := by
      have hlt := idx_lt h3
      rw [idx, List.getElem?_eq_getElem hlt, Res.ofOption_some, Res.ok.injEq] at h3
      exact h3 ▸ hdata _ (List.getElem_mem hlt)
    rw [initialCentersC]
    refine RunsIn.mono (runs_bind (ih prev h1) (runs_bind (runs_lift h3) (runs_ticked (runs_pure _)))) ?_
    rw [hp, Nat.add_mul k 1]
    omega

theorem sum_one_add_length {α : Type} (d : Nat) (l : List (List α)) (h : ∀ x ∈ l, x.length = d) :
    (l.map (fun c => 1 + c.length)).sum = l.length * (1 + d) := by
  induction l with
  | nil => simp
  | cons x l ih =>
    rw [List.map_cons, List.sum_cons, ih fun y hy => h y (by simp [hy]), h x (by simp), List.length_cons,
      Nat.add_mul l.length 1]
    omega

theorem kmeansSolveC_runs (dist : Distance) (d nc it : Nat) (hnc : 1 ≤ nc) (data : List (List Nat)) (hne : data ≠ [])
    (hdata : ∀ p ∈ data, p.length = d) (out : List (List Nat) × List UInt8)
    (h : kmeansSolve dist d data it nc = Res.ok out) :
    RunsIn (kmeansSolveC dist d data it nc) out (2 * (nc * (1 + d)) + data.length
      + it * ((data.length + 1) * ((nc + 1) * (d + 2)))) := by
  obtain ⟨c, h1, h2, h3⟩ := initialCenters_ok data d nc hdata hne nc (Nat.le_refl _)
  obtain ⟨c', a, k1, k2, k3, k4, k5⟩ := lloyd_ok dist d nc hnc data hdata it c h2 h3
    (List.replicate data.length 0) (by simp)
    (fun x hx => by rw [List.eq_of_mem_replicate hx]; exact hnc)
  have hv : kmeansSolve dist d data it nc
      = Res.ok (c'.map (fun c => c.map (fun x => (f32Mul x 10000).floor.toNat)), a) := by
    simp only [kmeansSolve, h1, Res.ok_bind, k1]
    rfl
  rw [hv, Res.ok.injEq] at h
  subst h
  have r1 := initialCentersC_runs data d nc hdata nc c h1
  have r2 := lloydC_runs dist d nc hnc data hdata it c h2 _ _ k1
  rw [kmeansSolveC]
  refine RunsIn.mono (runs_bind r1 (runs_ticked (runs_bind r2 (runs_ticked (runs_pure _))))) ?_
  rw [sum_one_add_length d c' k3, k2]
  omega

/-- What stays true of the statistics while symbols are reported. -/
def BlockWiseMap.Sized (n : Nat) (s : BlockWiseMap) : Prop :=
  s.size = n ∧ s.current.length = n + 1 ∧ ∀ m ∈ s.maps, m.length = n + 1

theorem blockWise_reportsIn (dist : Distance) (nc it n : Nat) :
    ReportsIn (blockWiseReporter dist nc it) (blockWiseReporterC dist nc it) (BlockWiseMap.Sized n) (n + 2) := by
  intro s x s' ⟨i1, i2, i3⟩ h
  refine ⟨?_, (runs_ticked (runs_lift h)).mono (by rw [i1]; split <;> omega)⟩
  simp only [blockWiseReporter, BlockWiseMap.report] at h
  obtain ⟨c, h1, h⟩ := bind_is_ok.1 h
  split at h
  swap
  · simp at h
  rw [Res.ok_bind] at h
  obtain ⟨cur, h3, h⟩ := bind_is_ok.1 h
  have hl := setIdx_length h3
  split at h
  · simp only [Res.pure_eq, Res.ok.injEq] at h
    subst h
    refine ⟨i1, by simp [i1], ?_⟩
    intro m hm
    rcases List.mem_append.1 hm with hm | hm
    · exact i3 m hm
    · simp at hm
      rw [hm, hl, i2]
  · simp only [Res.pure_eq, Res.ok.injEq] at h
    subst h
    exact ⟨i1, by rw [← i2, ← hl], i3⟩

theorem blockWiseZle_runs (dist : Distance) (nc it : Nat) (hnc : 1 ≤ nc) (n : Nat) (d : List UInt8)
    (out : List ZleSymbol × ReportedSymbols) (h : zleWithStrategy dist (Strategy.blockWise nc it) d n = Res.ok out) :
    RunsIn (zleWithStrategyC dist (Strategy.blockWise nc it) d n) out
      ((10 + n) * d.length + 3 * (n + 2) + 3 * (nc * (n + 2)) + out.2.selectors.length
        + it * ((out.2.selectors.length + 1) * ((nc + 1) * (n + 3)))) := by
  have h1 := zleTransformC_runs (blockWise_reportsIn dist nc it n) (BlockWiseMap.create n) d
    ⟨rfl, by simp [BlockWiseMap.create], by simp [BlockWiseMap.create]⟩
    (fun r => (n + 1) + 3 * (nc * (n + 2)) + r.selectors.length
        + it * ((r.selectors.length + 1) * ((nc + 1) * (n + 3))))
    (fun s r hs hf _ => by
      obtain ⟨i1, i2, i3⟩ := hs
      have hdata : ∀ p ∈ s.maps ++ [s.current], p.length = n + 1 := by
        intro p hp
        rcases List.mem_append.1 hp with hp | hp
        · exact i3 p hp
        · simp at hp
          rw [hp, i2]
      simp only [blockWiseReporter, BlockWiseMap.finalize, i1] at hf
      obtain ⟨⟨means, sel⟩, g1, g2⟩ := bind_is_ok.1 hf
      simp only [Res.pure_eq, Res.ok.injEq] at g2
      subst g2
      obtain ⟨means', sel', q1, q2, q3, q4, -⟩ := kmeansSolve_ok dist (n + 1) nc it hnc (s.maps ++ [s.current])
        (by simp) hdata
      rw [g1, Res.ok.injEq, Prod.mk.injEq] at q1
      obtain ⟨rfl, rfl⟩ := q1
      have r1 := kmeansSolveC_runs dist (n + 1) nc it hnc (s.maps ++ [s.current]) (by simp) hdata _ g1
      have hfc : (blockWiseReporterC dist nc it).finalize s = (do
        tick (s.size + 1)
        let (means, assignments) ← kmeansSolveC dist (s.size + 1) (s.maps ++ [s.current]) it nc
        tick (means.map (fun m => 1 + m.length)).sum
        pure ⟨means, assignments⟩) := rfl
      rw [hfc, i1]
      refine RunsIn.mono (runs_ticked (runs_bind r1 (runs_ticked (runs_pure _)))) ?_
      dsimp only
      rw [sum_one_add_length (n + 1) means q3, q2, q4, show 1 + (n + 1) = n + 2 by omega,
        show n + 1 + 2 = n + 3 by omega]
      omega) out h
  refine RunsIn.mono (runs_ticked (n := n + 1) h1) ?_
  have e : d.length * (8 + (n + 2)) = (10 + n) * d.length := by ring
  omega

end Ribzip2
