import Verif.Proofs.CliBuf
import Verif.Proofs.CliName
/- The main loop of the command line program. -/
namespace Ribzip2
open Spec

theorem create_fresh (fs : FileSys) (p : Path) (h : fs.dir p = none) :
    fs.create p = (⟨fun q => if q = p then some fs.next else fs.dir q,
      fun j => if j = fs.next then [] else fs.data j, fs.next + 1⟩, fs.next) := by
  simp [FileSys.create, h]

theorem main_append (c : Command) (xs ys : List (Path × ArgEnv)) (w w1 : World) (o : Outcome)
    (h : c.main xs w = (w1, o)) :
    c.main (xs ++ ys) w = if o = Outcome.ok then c.main ys w1 else (w1, o) := by
  induction xs generalizing w with
  | nil =>
    simp only [Command.main, Prod.mk.injEq] at h
    obtain ⟨rfl, rfl⟩ := h
    simp
  | cons x xs ih =>
    obtain ⟨p, env⟩ := x
    simp only [Command.main, List.cons_append] at h ⊢
    rcases hx : c.one env p w with ⟨w2, o2⟩
    rw [hx] at h
    cases o2 with
    | ok => exact ih w2 h
    | fileError => simp only [Prod.mk.injEq] at h; obtain ⟨rfl, rfl⟩ := h; simp
    | panic => simp only [Prod.mk.injEq] at h; obtain ⟨rfl, rfl⟩ := h; simp
    | div => simp only [Prod.mk.injEq] at h; obtain ⟨rfl, rfl⟩ := h; simp

theorem main_single (c : Command) (p : Path) (env : ArgEnv) (w : World) :
    c.main [(p, env)] w = c.one env p w := by
  simp only [Command.main]
  rcases c.one env p w with ⟨w1, o⟩
  cases o <;> rfl

/-- The ways `one` can go when nobody else puts a file at the output path: the input cannot be opened, or
the output exists or cannot be created, or the new file gets the data. -/
theorem one_cases (c : Command) (env : ArgEnv) (p : Path) (w : World)
    (hrace : ∀ fs : FileSys, fs.dir (c.outName p) = none → (env.beforeCreate fs).dir (c.outName p) = none) :
    ((c.one env p w).2 = Outcome.fileError ∧ (c.one env p w).1.touched = w.touched ∧
      ((c.one env p w).1.fs = env.before w.fs ∨ (c.one env p w).1.fs = env.beforeCheck (env.before w.fs) ∨
        (c.one env p w).1.fs = env.beforeCreate (env.beforeCheck (env.before w.fs)))) ∨
    (∃ i fs, (env.before w.fs).dir p = some i ∧ env.openOk = true ∧ env.createOk = true ∧
      (env.beforeCheck (env.before w.fs)).dir (c.outName p) = none ∧
      fs = env.beforeCreate (env.beforeCheck (env.before w.fs)) ∧
      c.one env p w = (⟨⟨fun q => if q = c.outName p then some fs.next else fs.dir q,
          fun j => if j = fs.next then (c.run (env.reader ((env.before w.fs).data i)) env.script).1 else fs.data j,
          fs.next + 1⟩, fs.next :: fs.next :: w.touched⟩,
        (c.run (env.reader ((env.before w.fs).data i)) env.script).2)) := by
  unfold Command.one openBoth
  dsimp only
  rcases h1 : (env.before w.fs).dir p with _ | i
  · exact Or.inl ⟨rfl, rfl, Or.inl rfl⟩
  · cases h2 : env.openOk with
    | false => exact Or.inl ⟨rfl, rfl, Or.inl rfl⟩
    | true =>
      simp only
      rcases h3 : (env.beforeCheck (env.before w.fs)).dir (c.outName p) with _ | i'
      · simp only
        cases h4 : env.createOk with
        | false => exact Or.inl ⟨rfl, rfl, Or.inr (Or.inr rfl)⟩
        | true =>
          simp only [if_true]
          have h5 := hrace _ h3
          rw [create_fresh _ _ h5]
          simp only
          rcases hr : c.run (env.reader ((env.before w.fs).data i)) env.script with ⟨bytes, o⟩
          refine Or.inr ⟨i, _, rfl, trivial, trivial, trivial, rfl, ?_⟩
          simp only [hr, FileSys.put, Prod.mk.injEq, World.mk.injEq, FileSys.mk.injEq, true_and, and_true]
          funext j
          split <;> simp_all
      · exact Or.inl ⟨rfl, rfl, Or.inr (Or.inl rfl)⟩

end Ribzip2
