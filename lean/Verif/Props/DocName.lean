import Verif.Props.Cli
/- Property C83: where `decompress` writes, against the README ("The latter will output from `file.bz2` to
`file.out`"). -/
namespace Ribzip2
open Spec

/-- **C83 is false**: after a successful `decompress a.bz2` there is no `a.out`. -/
theorem C83_refuted : ¬ ∀ (numCpus : Nat) (envs : Nat → ArgEnv) (fs : FileSys) (file : List UInt8) (w' : World),
    (∀ i, Alone (envs i)) → FilePath [] file →
    tryMain numCpus (Opt.decompress [file ++ [46, 98, 122, 50]]) envs ⟨fs, []⟩ = (w', Outcome.ok) →
    (contentAt w'.fs (file ++ [46, 111, 117, 116])).isSome := by
  intro h
  have hw : (tryMain 1 (Opt.decompress [[97] ++ [46, 98, 122, 50]]) (fun _ => calm) ⟨bz2File, []⟩).2 = Outcome.ok := by
    decide +kernel
  have := h 1 (fun _ => calm) bz2File [97]
    (tryMain 1 (Opt.decompress [[97] ++ [46, 98, 122, 50]]) (fun _ => calm) ⟨bz2File, []⟩).1
    (fun _ _ => ⟨rfl, rfl, rfl⟩) ⟨Or.inl rfl, by decide, by decide, by decide, by decide⟩ (Prod.ext rfl hw)
  revert this
  decide +kernel

/-- **C83 (partial).** Where the output is instead: `decompress file.bz2`, when nobody else is active and the
program is not refused a file, creates `file`, which did not exist, with what the library writes, and leaves
every other name as it was. -/
theorem C83_output_is_file_partial (numCpus : Nat) (envs : Nat → ArgEnv) (fs : FileSys) (dir name : List UInt8)
    (w' : World) (o : Outcome) (hp : FilePath dir name) (ha : Alone (envs 0)) (ho : o ≠ Outcome.fileError)
    (h : tryMain numCpus (Opt.decompress [dir ++ name ++ [46, 98, 122, 50]]) envs ⟨fs, []⟩ = (w', o)) :
    ∃ i, fs.dir (dir ++ name ++ [46, 98, 122, 50]) = some i ∧ fs.dir (dir ++ name) = none ∧
      contentAt w'.fs (dir ++ name)
        = some (decodeStream ((envs 0).reader (fs.data i)) ⟨[], (envs 0).script.map FEvent.toWEvent⟩).1.out ∧
      ∀ q, q ≠ dir ++ name → w'.fs.dir q = fs.dir q := by
  have hn : decompressName (dir ++ name ++ [46, 98, 122, 50]) = dir ++ name := by
    have := C41_names_round_trip dir name hp
    rw [this.1] at this
    exact this.2
  have h1 : Command.decompress.one (envs 0) (dir ++ name ++ [46, 98, 122, 50]) ⟨fs, []⟩ = (w', o) := by
    simp only [tryMain, List.zipIdx_cons, List.zipIdx_nil, List.map_cons, List.map_nil, Command.main] at h
    generalize Command.decompress.one (envs 0) (dir ++ name ++ [46, 98, 122, 50]) ⟨fs, []⟩ = x at h ⊢
    rcases x with ⟨w, o'⟩
    cases o' <;> simpa [Command.main] using h
  obtain ⟨i, g1, g2, g3, g4⟩ := decompress_one _ _ _ _ _ ho ha h1
  rw [hn] at g2 g3
  refine ⟨i, g1, g2, ?_, ?_⟩
  · rw [g3, decompressData]
    generalize decodeStream ((envs 0).reader (fs.data i)) ⟨[], (envs 0).script.map FEvent.toWEvent⟩ = x
    rcases x with ⟨w, r⟩
    cases r <;> rfl
  · intro q hq
    have a1 := (ha fs).1
    have a2 := (ha fs).2.1
    have a3 := (ha fs).2.2
    simp only at g1 g2
    have hw : w' = (Command.decompress.one (envs 0) (dir ++ name ++ [46, 98, 122, 50]) ⟨fs, []⟩).1 := by rw [h1]
    rw [hw]
    simp only [Command.one, openBoth, a1, a2, a3, g1, Command.outName, hn, g2, FileSys.create]
    cases (envs 0).openOk <;> cases (envs 0).createOk <;> simp [FileSys.put, hq]

/-- `decompress a.bz2`. -/
example : ∃ w', tryMain 1 (Opt.decompress [[] ++ [97] ++ [46, 98, 122, 50]]) (fun _ => calm) ⟨bz2File, []⟩
      = (w', Outcome.ok) ∧ FilePath [] [97] ∧ contentAt w'.fs [97] = some [97, 98] :=
  ⟨_, Prod.ext rfl (by decide +kernel), ⟨Or.inl rfl, by decide, by decide, by decide, by decide⟩, by decide +kernel⟩

end Ribzip2
