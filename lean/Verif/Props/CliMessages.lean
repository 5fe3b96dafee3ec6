import Verif.Model.CliMessages
import Verif.Props.Cli
/- Property C84: what the command line program says when it stops with status 1. -/
namespace Ribzip2
open Spec

/-- Why the argument `p` is refused when the world is `w`, and what is then said. -/
inductive Refused (sys : Path → List UInt8) (c : Command) (env : ArgEnv) (p : Path) (w : World) : List UInt8 → Prop
  /-- the input does not exist or cannot be opened -/
  | input (h : (env.before w.fs).dir p = none ∨ env.openOk = false) : Refused sys c env p w (sys p)
  /-- the input is open, and the output is there -/
  | output (i j : Nat) (h : (env.before w.fs).dir p = some i) (ho : env.openOk = true)
      (h2 : (env.beforeCheck (env.before w.fs)).dir (c.outName p) = some j) :
      Refused sys c env p w ("Output file ".toUTF8.toList ++ c.outName p ++ " already exists".toUTF8.toList)
  /-- the input is open, the output is not there but cannot be created -/
  | create (i : Nat) (h : (env.before w.fs).dir p = some i) (ho : env.openOk = true)
      (h2 : (env.beforeCheck (env.before w.fs)).dir (c.outName p) = none) (hc : env.createOk = false) :
      Refused sys c env p w (sys (c.outName p))

theorem texts : outputFile = "Output file ".toUTF8.toList ∧ alreadyExists = " already exists".toUTF8.toList := by
  decide +kernel

theorem oneE_cases (sys : Path → List UInt8) (c : Command) (env : ArgEnv) (p : Path) (w : World) :
    (∃ w' o, c.oneE sys env p w = (w', Except.ok o) ∧ c.one env p w = (w', o) ∧ o ≠ Outcome.fileError) ∨
    (∃ w' e, c.oneE sys env p w = (w', Except.error e) ∧ c.one env p w = (w', Outcome.fileError) ∧
      Refused sys c env p w e.display) := by
  unfold Command.oneE Command.one openFileE createFileE openBoth
  dsimp only
  rcases h1 : (env.before w.fs).dir p with _ | i
  · exact Or.inr ⟨_, _, rfl, rfl, Refused.input (Or.inl h1)⟩
  · cases h2 : env.openOk with
    | false => exact Or.inr ⟨_, _, rfl, rfl, Refused.input (Or.inr h2)⟩
    | true =>
      simp only
      rcases h3 : (env.beforeCheck (env.before w.fs)).dir (c.outName p) with _ | j
      · cases h4 : env.createOk with
        | false => exact Or.inr ⟨_, _, rfl, rfl, Refused.create i h1 h2 h3 h4⟩
        | true =>
          simp only [if_true]
          exact Or.inl ⟨_, _, rfl, rfl, run_ne_fileError _ _ _⟩
      · refine Or.inr ⟨_, _, rfl, rfl, ?_⟩
        simp only [FileErr.display, texts.1, texts.2]
        exact Refused.output i j h1 h2 h3

/-- **C84.** For both commands, all lists of arguments and whatever other processes do: the program with messages
does what the program does. It prints nothing on standard error (the message of a panic aside) unless it ends with
status 1. Then the arguments before some argument `p` were all processed successfully, `p` was refused, and the one
line printed tells why: that the output exists, with its name, or else what the system says about the input or about
the output. -/
theorem C84_refusal_is_explained (sys : Path → List UInt8) (c : Command) (args : List (Path × ArgEnv)) (w : World) :
    ((c.mainE sys args w).1, (c.mainE sys args w).2.1) = c.main args w ∧
    ((c.mainE sys args w).2.1 ≠ Outcome.fileError → (c.mainE sys args w).2.2 = []) ∧
    ((c.mainE sys args w).2.1 = Outcome.fileError → ∃ done p env rest w₁ line,
      args = done ++ (p, env) :: rest ∧ c.main done w = (w₁, Outcome.ok) ∧
      Refused sys c env p w₁ line ∧ (c.mainE sys args w).2.2 = [line]) := by
  induction args generalizing w with
  | nil => simp [Command.mainE, Command.main]
  | cons a rest ih =>
    obtain ⟨p, env⟩ := a
    rcases oneE_cases sys c env p w with ⟨w', o, h1, h2, h3⟩ | ⟨w', e, h1, h2, h3⟩
    · by_cases ho : o = Outcome.ok
      · subst ho
        obtain ⟨i1, i2, i3⟩ := ih w'
        simp only [Command.mainE, Command.main, h1, h2]
        refine ⟨i1, i2, fun h => ?_⟩
        obtain ⟨done, q, e, r, w₁, line, j1, j2, j3⟩ := i3 h
        refine ⟨(p, env) :: done, q, e, r, w₁, line, by rw [j1]; rfl, ?_, j3⟩
        simp only [Command.main, h2]
        exact j2
      · have e1 : c.mainE sys ((p, env) :: rest) w = (w', o, []) := by
          simp only [Command.mainE, h1]
        have e2 : c.main ((p, env) :: rest) w = (w', o) := by
          simp only [Command.main, h2]
        rw [e1, e2]
        exact ⟨rfl, fun _ => rfl, fun h => absurd h h3⟩
    · have e1 : c.mainE sys ((p, env) :: rest) w = (w', Outcome.fileError, [e.display]) := by
        simp only [Command.mainE, h1]
      have e2 : c.main ((p, env) :: rest) w = (w', Outcome.fileError) := by
        simp only [Command.main, h2]
      rw [e1, e2]
      exact ⟨rfl, fun h => absurd rfl h, fun _ => ⟨[], p, env, rest, w, _, rfl, rfl, h3, rfl⟩⟩

/-- `compress b a` where `a.bz2` exists already; `decompress` of a name that does not exist. -/
example : ((Command.compress 1 Strategy.single).mainE (fun _ => [63]) [([98], calm), ([97], calm)]
      ⟨⟨fun q => if q = [97] then some 0 else if q = [98] then some 1 else if q = [97, 46, 98, 122, 50] then some 2 else none,
        fun _ => [], 3⟩, []⟩).2 = (Outcome.fileError, ["Output file a.bz2 already exists".toUTF8.toList]) ∧
    (Command.decompress.mainE (fun p => p ++ [63]) [([99], calm)] ⟨twoFiles, []⟩).2
      = (Outcome.fileError, ["c?".toUTF8.toList]) := by
  decide +kernel

end Ribzip2
