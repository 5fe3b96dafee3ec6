import Verif.Props.Cli
import Verif.Props.Writers
import Verif.Props.Options
import Verif.Props.Release
/- Property C92: the command line program in release builds. (C42, C44, C52, C84 and C90 are about all commands, among them
`decompressRelease`.) -/
namespace Ribzip2
open Spec

/-- More blocks, more output: the output of the first `write` calls stays. -/
theorem writeAll_prefix (w : Writer) (a b : List (List UInt8)) :
    (writeAll w a).1.out <+: (writeAll w (a ++ b)).1.out := by
  rw [(writeAll_kept w a).1, (writeAll_kept w (a ++ b)).1]
  refine (List.prefix_append_right_inj _).2 ?_
  generalize w.script = sc
  induction a generalizing sc with
  | nil => simp [kept]
  | cons x a ih =>
    cases sc with
    | nil => simp only [kept, List.cons_append]; exact (List.prefix_append_right_inj _).2 (ih [])
    | cons e sc =>
      cases e with
      | accept k => simp only [kept, List.cons_append]; exact (List.prefix_append_right_inj _).2 (ih sc)
      | fail => simp [kept]

/-- For every writer the output of the checked build is a prefix of the output of the release build. -/
theorem checked_output_is_a_prefix (r : Reader) (w : Writer) :
    (decodeStream r w).1.out <+: (Release.decodeStream r w).1.out := by
  rw [decodeStream_eq, Release.decodeStream_eq]
  obtain ⟨t, ht⟩ := (Release.agree_stream (bytesBits (delivered r.events))).2
  have h := writeAll_prefix w (pStream (bytesBits (delivered r.events))).1 t
  rw [ht] at h
  generalize writeAll w (pStream (bytesBits (delivered r.events))).1 = x at *
  generalize writeAll w (Release.pStream (bytesBits (delivered r.events))).1 = y at *
  obtain ⟨w1, (_ | _ | _ | _)⟩ := x <;> obtain ⟨w2, (_ | _ | _ | _)⟩ := y <;> exact h

/-- What the library call of a `decompress` that has got its files returns. -/
def libraryResult (env : ArgEnv) (input : List UInt8) : Res Unit :=
  (decodeStream (env.reader input) ⟨[], env.script.map FEvent.toWEvent⟩).2

theorem decompressData_agrees (r : Reader) (script : List FEvent)
    (h : (decodeStream r ⟨[], script.map FEvent.toWEvent⟩).2 ≠ Res.panic) :
    Release.decompressData r script = decompressData r script := by
  unfold Release.decompressData decompressData
  rw [C62_release_agrees _ _ h]

theorem decompressData_prefix (r : Reader) (script : List FEvent) :
    (decompressData r script).1 <+: (Release.decompressData r script).1 := by
  have h := checked_output_is_a_prefix r ⟨[], script.map FEvent.toWEvent⟩
  unfold Release.decompressData decompressData
  generalize decodeStream r ⟨[], script.map FEvent.toWEvent⟩ = x at *
  generalize Release.decodeStream r ⟨[], script.map FEvent.toWEvent⟩ = y at *
  obtain ⟨w1, (_ | _ | _ | _)⟩ := x <;> obtain ⟨w2, (_ | _ | _ | _)⟩ := y <;> exact h

/-- The two builds side by side: refused by both, or both put their result into the same file. -/
theorem both_one (env : ArgEnv) (p : Path) (w : World) :
    (Command.decompressRelease.one env p w = Command.decompress.one env p w ∧
      (Command.decompress.one env p w).2 = Outcome.fileError) ∨
    ∃ (i : Nat) (fs : FileSys) (j : Nat) (touched : List Nat), (env.before w.fs).dir p = some i ∧ fs.dir (decompressName p) = some j ∧
      Command.decompress.one env p w = (⟨fs.put j (decompressData (env.reader ((env.before w.fs).data i)) env.script).1, touched⟩,
        (decompressData (env.reader ((env.before w.fs).data i)) env.script).2) ∧
      Command.decompressRelease.one env p w
        = (⟨fs.put j (Release.decompressData (env.reader ((env.before w.fs).data i)) env.script).1, touched⟩,
          (Release.decompressData (env.reader ((env.before w.fs).data i)) env.script).2) := by
  unfold Command.one openBoth
  simp only [Command.outName]
  rcases hi : (env.before w.fs).dir p with _ | i
  · exact Or.inl ⟨rfl, rfl⟩
  · cases env.openOk with
    | false => exact Or.inl ⟨rfl, rfl⟩
    | true =>
      simp only
      rcases (env.beforeCheck (env.before w.fs)).dir (decompressName p) with _ | i'
      · simp only
        cases env.createOk with
        | false => exact Or.inl ⟨rfl, rfl⟩
        | true =>
          right
          refine ⟨i, ((env.beforeCreate (env.beforeCheck (env.before w.fs))).create (decompressName p)).1,
            ((env.beforeCreate (env.beforeCheck (env.before w.fs))).create (decompressName p)).2, _, rfl, ?_, rfl, rfl⟩
          unfold FileSys.create
          split
          · rename_i j hj; exact hj
          · simp
      · exact Or.inl ⟨rfl, rfl⟩

/-- **C92**, one argument: unless the library panics on the input, `decompress` of a release build does exactly what
`decompress` of a checked build does: same files, same status. In the midst of any activity of other processes. -/
theorem C92_same_argument (env : ArgEnv) (p : Path) (w : World)
    (h : ∀ i, (env.before w.fs).dir p = some i → libraryResult env ((env.before w.fs).data i) ≠ Res.panic) :
    Command.decompressRelease.one env p w = Command.decompress.one env p w := by
  rcases both_one env p w with ⟨e, -⟩ | ⟨i, fs, j, tc, h1, -, h3, h4⟩
  · exact e
  · rw [h3, h4, decompressData_agrees _ _ (h i h1)]

/-- **C92**: for every list of arguments: unless the checked build panics, the release build does exactly the same. -/
theorem C92_same_program (args : List (Path × ArgEnv)) (w : World)
    (h : (Command.decompress.main args w).2 ≠ Outcome.panic) :
    Command.decompressRelease.main args w = Command.decompress.main args w := by
  induction args generalizing w with
  | nil => rfl
  | cons a args ih =>
    obtain ⟨p, env⟩ := a
    have hone : Command.decompressRelease.one env p w = Command.decompress.one env p w := by
      rcases both_one env p w with ⟨e, -⟩ | ⟨i, fs, j, tc, h1, -, h3, h4⟩
      · exact e
      · rw [h3, h4, decompressData_agrees]
        intro hr
        apply h
        have : (decompressData (env.reader ((env.before w.fs).data i)) env.script).2 = Outcome.panic := by
          unfold decompressData
          generalize decodeStream (env.reader ((env.before w.fs).data i)) ⟨[], env.script.map FEvent.toWEvent⟩ = x at hr ⊢
          obtain ⟨w1, o⟩ := x
          simp only at hr
          subst hr
          rfl
        simp only [Command.main, h3, this]
    simp only [Command.main] at h ⊢
    rw [hone]
    rcases hx : Command.decompress.one env p w with ⟨w1, o⟩
    rw [hx] at h
    cases o with
    | ok => exact ih w1 h
    | fileError => rfl
    | panic => rfl
    | div => rfl

/-- **C92**, the whole program with its options, on a machine with any number of processors. -/
theorem C92_same_options (numCpus : Nat) (opt : Opt) (envs : Nat → ArgEnv) (w : World)
    (h : (tryMain numCpus opt envs w).2 ≠ Outcome.panic) :
    Release.tryMain numCpus opt envs w = tryMain numCpus opt envs w := by
  cases opt with
  | decompress input => exact C92_same_program _ w h
  | compress input threads encodingOptions => rfl

theorem differ_put (fs : FileSys) (j : Nat) (tc : List Nat) (q : Path) (h2 : fs.dir q = some j) (a b : List UInt8)
    (oa ob : Outcome) (n1 : oa ≠ Outcome.fileError) (n2 : ob ≠ Outcome.fileError) (hp : a <+: b) (x y : World × Outcome)
    (h3 : x = (⟨fs.put j a, tc⟩, oa)) (h4 : y = (⟨fs.put j b, tc⟩, ob)) :
    (y.2 = Outcome.fileError ↔ x.2 = Outcome.fileError) ∧ y.1.fs.dir = x.1.fs.dir ∧
    (∀ k, x.1.fs.dir q ≠ some k → y.1.fs.data k = x.1.fs.data k) ∧
    ∀ k, x.1.fs.data k <+: y.1.fs.data k := by
  subst h3 h4
  refine ⟨by simp [n1, n2], rfl, fun k hk => ?_, fun k => ?_⟩
  · simp only [FileSys.put, h2, ne_eq, Option.some.injEq] at hk ⊢
    simp [Ne.symm hk]
  · simp only [FileSys.put]
    split
    · exact hp
    · exact List.prefix_refl _

/-- **C92**, what can differ, whatever other processes do: an argument is refused by both builds or by neither; all names
are the same; all files are the same but the one the output path names, and of that the checked build has written
a prefix of what the release build has written. -/
theorem C92_only_the_output_can_differ (env : ArgEnv) (p : Path) (w : World) :
    ((Command.decompressRelease.one env p w).2 = Outcome.fileError ↔ (Command.decompress.one env p w).2 = Outcome.fileError) ∧
    (Command.decompressRelease.one env p w).1.fs.dir = (Command.decompress.one env p w).1.fs.dir ∧
    (∀ k, (Command.decompress.one env p w).1.fs.dir (decompressName p) ≠ some k →
      (Command.decompressRelease.one env p w).1.fs.data k = (Command.decompress.one env p w).1.fs.data k) ∧
    ∀ k, (Command.decompress.one env p w).1.fs.data k <+: (Command.decompressRelease.one env p w).1.fs.data k := by
  rcases both_one env p w with ⟨e, -⟩ | ⟨i, fs, j, tc, h1, h2, h3, h4⟩
  · rw [e]
    exact ⟨Iff.rfl, rfl, fun _ _ => rfl, fun _ => List.prefix_refl _⟩
  · have n1 := run_ne_fileError Command.decompress (env.reader ((env.before w.fs).data i)) env.script
    have n2 := run_ne_fileError Command.decompressRelease (env.reader ((env.before w.fs).data i)) env.script
    exact differ_put fs j tc _ h2 _ _ _ _ n1 n2 (decompressData_prefix _ _) _ _ h3 h4

/-- A file `a.bz2` that only the release build accepts. -/
def onlyRelease : FileSys where
  dir := fun q => if q = [97, 46, 98, 122, 50] then some 0 else none
  data := fun i => if i = 0 then sampleBelowZero else []
  next := 1

/-- **C92**: the exception is needed. There is a file for which the checked build panics and leaves an empty output, and the
release build ends with status 0 and writes "a". -/
theorem C92_release_accepts_more :
    (Command.decompress.one calm [97, 46, 98, 122, 50] ⟨onlyRelease, []⟩).2 = Outcome.panic ∧
    contentAt (Command.decompress.one calm [97, 46, 98, 122, 50] ⟨onlyRelease, []⟩).1.fs [97] = some [] ∧
    (Command.decompressRelease.one calm [97, 46, 98, 122, 50] ⟨onlyRelease, []⟩).2 = Outcome.ok ∧
    contentAt (Command.decompressRelease.one calm [97, 46, 98, 122, 50] ⟨onlyRelease, []⟩).1.fs [97] = some [97] :=
  ⟨by decide +kernel, by decide +kernel, by decide +kernel, by decide +kernel⟩

/-- The hypothesis of `C92_same_argument` is met by the file of `C50_refuted`, which both builds decompress. -/
example : (∀ i, bz2File.dir [97, 46, 98, 122, 50] = some i → libraryResult calm (bz2File.data i) ≠ Res.panic) ∧
    (Command.decompressRelease.one calm [97, 46, 98, 122, 50] ⟨bz2File, []⟩).2 = Outcome.ok ∧
    contentAt (Command.decompressRelease.one calm [97, 46, 98, 122, 50] ⟨bz2File, []⟩).1.fs [97] = some [97, 98] := by
  refine ⟨fun i hi => ?_, by decide +kernel, by decide +kernel⟩
  obtain rfl : i = 0 := by simp [bz2File] at hi; exact hi.symm
  decide +kernel

/-! ### C36, C50 and C51 for release builds -/

/-- C36 for release builds: what reaches the writer, for every writer. -/
theorem release_every_writer (r : Reader) :
    ∃ blocks, (Release.decodeStream r Writer.empty).1.out = blocks.flatten ∧
      ∀ w, (Release.decodeStream r w).1.out = w.out ++ kept w.script blocks ∧
        (Release.decodeStream r w).2
          = if failsWithin w.script blocks.length then Res.err else (Release.decodeStream r Writer.empty).2 := by
  have hE : Release.decodeStream r Writer.empty = (⟨(Release.pStream (bytesBits (delivered r.events))).1.flatten, []⟩,
      (Release.pStream (bytesBits (delivered r.events))).2) := by
    have := Release.decodeStream_reliable r []
    simpa [Writer.empty] using this
  refine ⟨(Release.pStream (bytesBits (delivered r.events))).1, by rw [hE], fun w => ?_⟩
  have hw := Release.decodeStream_eq r w
  rw [hE]
  generalize Release.pStream (bytesBits (delivered r.events)) = y at *
  obtain ⟨ds, res⟩ := y
  obtain ⟨k1, k2⟩ := writeAll_kept w ds
  constructor
  · rw [hw, ← k1]
    rcases writeAll w ds with ⟨w', rr⟩
    cases rr <;> rfl
  · rw [hw]
    rcases hx : writeAll w ds with ⟨w', rr⟩
    rw [hx] at k2
    simp only at k2 ⊢
    cases hf : failsWithin w.script ds.length <;> rw [hf] at k2 <;> simp at k2 <;> subst k2 <;> simp

/-- **C92** (C50 for release builds), for every behaviour of the file: when `decompress` has opened both files, the output
file holds of each block what the one `write` call for it took, up to the first failing or interrupted call; the status is
0 exactly if the library succeeds with a reliable writer and no call failed or was interrupted. -/
theorem C92_every_file (env : ArgEnv) (p : Path) (w w' : World) (ha : Alone env) (o : Outcome)
    (ho : o ≠ Outcome.fileError) (h : Command.decompressRelease.one env p w = (w', o)) :
    ∃ i blocks, w.fs.dir p = some i ∧
      (Release.decodeStream (env.reader (w.fs.data i)) Writer.empty).1.out = blocks.flatten ∧
      contentAt w'.fs (decompressName p) = some (kept (env.script.map FEvent.toWEvent) blocks) ∧
      (o = Outcome.ok ↔ (Release.decodeStream (env.reader (w.fs.data i)) Writer.empty).2 = Res.ok () ∧
        failsWithin (env.script.map FEvent.toWEvent) blocks.length = false) := by
  rcases both_one env p w with ⟨e, e'⟩ | ⟨i, fs, j, tc, h1, h2, -, h4⟩
  · rw [← e, h] at e'
    exact absurd e' ho
  · rw [(ha _).1] at h1 h4
    rw [h] at h4
    simp only [Prod.mk.injEq] at h4
    obtain ⟨rfl, h4⟩ := h4
    obtain ⟨blocks, b1, b2⟩ := release_every_writer (env.reader (w.fs.data i))
    obtain ⟨k1, k2⟩ := b2 ⟨[], env.script.map FEvent.toWEvent⟩
    refine ⟨i, blocks, h1, b1, ?_, ?_⟩
    · have : (Release.decompressData (env.reader (w.fs.data i)) env.script).1 = kept (env.script.map FEvent.toWEvent) blocks := by
        rw [← List.nil_append (kept _ _), ← k1]
        unfold Release.decompressData
        rcases Release.decodeStream (env.reader (w.fs.data i)) ⟨[], env.script.map FEvent.toWEvent⟩ with ⟨w1, r1⟩
        cases r1 <;> rfl
      simp [contentAt, FileSys.put, h2, this]
    · rw [h4]
      unfold Release.decompressData
      rcases hd : Release.decodeStream (env.reader (w.fs.data i)) ⟨[], env.script.map FEvent.toWEvent⟩ with ⟨w1, r1⟩
      rw [hd] at k2
      simp only at k2
      cases hf : failsWithin (env.script.map FEvent.toWEvent) blocks.length <;> rw [hf] at k2 <;> simp at k2 <;> subst k2
      · cases (Release.decodeStream (env.reader (w.fs.data i)) Writer.empty).2 <;> simp
      · simp

/-- **C92** (C51 for release builds): `compress` of a file, deletion of the file, `decompress` of the result restores it, for
every content that the library gets back (C01 and C28 say which). -/
theorem C92_round_trip (dir name : List UInt8) (hp : FilePath dir name) (threads : Nat) (ht : 1 ≤ threads)
    (strategy : Strategy) (w : World) (i : Nat) (e1 e2 : ArgEnv)
    (hi : w.fs.dir (dir ++ name) = some i)
    (hout : w.fs.dir (dir ++ name ++ [46, 98, 122, 50]) = none)
    (ha1 : Alone e1) (ha2 : Alone e2) (hr1 : ReadsAll e1) (hr2 : ReadsAll e2)
    (ho1 : e1.openOk = true ∧ e1.createOk = true) (ho2 : e2.openOk = true ∧ e2.createOk = true)
    (hs1 : NoFileError e1.script) (hs2 : e2.script = [])
    (hlib : ∃ bytes, encodeBytes euclid (w.fs.data i) threads strategy = Res.ok bytes ∧
      decodeBytes bytes = Res.ok (w.fs.data i)) :
    ∃ w1 w2, (Command.compress threads strategy).main [(dir ++ name, e1)] w = (w1, Outcome.ok) ∧
      Command.decompressRelease.main [(dir ++ name ++ [46, 98, 122, 50], e2)] (remove (dir ++ name) w1) = (w2, Outcome.ok) ∧
      contentAt w2.fs (dir ++ name) = some (w.fs.data i) := by
  obtain ⟨w1, w2, h1, h2, h3⟩ := C51_round_trip_partial dir name hp threads ht strategy w i e1 e2 hi hout ha1 ha2 hr1 hr2
    ho1 ho2 hs1 hs2 hlib
  exact ⟨w1, w2, h1, by rw [C92_same_program _ _ (by rw [h2]; simp), h2], h3⟩

/-- Instances of C92_same_program, C92_same_options and C92_every_file. -/
example : Command.decompressRelease.main [([97, 46, 98, 122, 50], calm)] ⟨bz2File, []⟩
      = Command.decompress.main [([97, 46, 98, 122, 50], calm)] ⟨bz2File, []⟩ :=
  C92_same_program _ _ (by decide +kernel)

/-- Instance of C92_only_the_output_can_differ. -/
example : (Command.decompressRelease.one calm [97, 46, 98, 122, 50] ⟨bz2File, []⟩).1.fs.dir [97] = some 1 := by
  rw [(C92_only_the_output_can_differ calm [97, 46, 98, 122, 50] ⟨bz2File, []⟩).2.1]; decide +kernel

/-- Instance of C92_every_file. -/
example : ∃ (i : Nat) (blocks : List (List UInt8)), bz2File.dir [97, 46, 98, 122, 50] = some i ∧
      (Release.decodeStream (Reader.ofBytes (bz2File.data i)) Writer.empty).1.out = blocks.flatten ∧ blocks.flatten = [97, 98] := by
  obtain ⟨i, blocks, h1, h2, -⟩ := C92_every_file calm [97, 46, 98, 122, 50] ⟨bz2File, []⟩ _ (fun _ => ⟨rfl, rfl, rfl⟩) Outcome.ok
    (by decide) (Prod.ext rfl (by decide +kernel))
  refine ⟨i, blocks, h1, h2, ?_⟩
  obtain rfl : i = 0 := by simp [bz2File] at h1; exact h1.symm
  rw [← h2]
  decide +kernel

end Ribzip2
