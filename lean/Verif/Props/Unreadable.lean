import Verif.Props.CliRelease
import Verif.Props.ReleaseRobust
import Verif.Props.ReadErrors
import Verif.Props.Killed
/- Property C93: an input that cannot be read, at the command line. -/
namespace Ribzip2
open Spec

/-- From some point on every read of the input fails (and no read before that point reports the end of the file). With
`es = []` this is what the system does with a directory, which can be opened but not read. -/
def KeepsFailing (r : Reader) : Prop := ∃ es, r = ⟨es, true⟩ ∧ ∀ e ∈ es, e ≠ REvent.data []

theorem encode_keepsFailing (dist : Distance) (r : Reader) (hr : KeepsFailing r) (t : Nat) (strategy : Strategy)
    (hs : NeverFails strategy) : (encodeStream dist r Writer.empty t strategy).2 = Res.div := by
  obtain ⟨es, rfl, hn⟩ := hr
  have h1 : (encodeStream dist ⟨es, true⟩ Writer.empty t strategy).2 = Res.ok () ∨
      (encodeStream dist ⟨es, true⟩ Writer.empty t strategy).2 = Res.div := by
    unfold encodeStream
    rcases hs with rfl | ⟨nc, it, hnc, rfl⟩
    · exact C39_never_panics _ _ _ _
    · exact C49_kmeans_never_panics _ _ _ _ hnc _ _
  rcases h1 with h1 | h1
  · have h2 : encodeStream dist ⟨es, true⟩ Writer.empty t strategy
        = ((encodeStream dist ⟨es, true⟩ Writer.empty t strategy).1, Res.ok ()) := Prod.ext rfl h1
    exact absurd h2 (encodeStreamFuel_noEof _ dist es hn Writer.empty _ t strategy)
  · exact h1

/-- **C93**, the part that holds for `compress`: an input of which every read fails from some point on is never reported as
compressed, whatever the writes do, for every strategy and number of threads. Missing: that the program ends and reports
it (`C93_refuted_never_ends`), and errors after which a read succeeds or reports the end (`C93_refuted_lost`). -/
theorem C93_no_success_partial (threads : Nat) (strategy : Strategy) (env : ArgEnv) (p : Path) (w w' : World) (i : Nat)
    (hi : w.fs.dir p = some i) (ha : Alone env) (hr : KeepsFailing (env.reader (w.fs.data i))) :
    (Command.compress threads strategy).one env p w ≠ (w', Outcome.ok) := by
  intro h
  obtain ⟨i', h1, -, -, h4⟩ := compress_one threads strategy env p w w' _ (by simp) ha h
  rw [hi, Option.some.injEq] at h1
  subst h1
  obtain ⟨es, e1, hn⟩ := hr
  obtain ⟨bytes, res, k1, -, k3⟩ := compressData_prefix euclid (env.reader (w.fs.data i)) threads strategy env.script
  obtain ⟨rfl, -⟩ := k3 h4
  rw [e1] at k1
  exact encodeStreamFuel_noEof _ _ es hn _ _ _ _ k1

/-- **C93 is false** for `compress`: if from some point on every read of the input fails, the program never ends, whatever
follows on the command line, for every number of threads and processors, without options and with `single` or `k-means`
(at least one table). -/
theorem C93_refuted_never_ends (numCpus : Nat) (threads : Option Nat) (enc : Option EncodingOptions)
    (hs : NeverFails (cliStrategy enc)) (p : Path) (more : List Path) (w : World) (i : Nat) (envs : Nat → ArgEnv)
    (hi : w.fs.dir p = some i) (hout : w.fs.dir (compressName p) = none) (ha : Alone (envs 0))
    (ho : (envs 0).openOk = true) (hc : (envs 0).createOk = true) (hw : NoFileError (envs 0).script)
    (hr : KeepsFailing ((envs 0).reader (w.fs.data i))) :
    (tryMain numCpus (Opt.compress (p :: more) threads enc) envs w).2 = Outcome.div := by
  have hne := one_opened (Command.compress (cliThreads threads numCpus) (cliStrategy enc)) (envs 0) p w i hi hout ha ho hc
  rcases hone : (Command.compress (cliThreads threads numCpus) (cliStrategy enc)).one (envs 0) p w with ⟨w', o⟩
  rw [hone] at hne
  obtain ⟨i', f1, -, -, f4⟩ := compress_one _ _ _ _ _ _ _ hne ha hone
  rw [hi, Option.some.injEq] at f1
  subst f1
  obtain ⟨bytes, res, k1, k2, -⟩ := compressData_noError euclid ((envs 0).reader (w.fs.data i))
    (cliThreads threads numCpus) (cliStrategy enc) (envs 0).script hw
  have hd := encode_keepsFailing euclid _ hr (cliThreads threads numCpus) _ hs
  rw [k1] at hd
  simp only at hd
  rw [hd, f4, outcomeOf] at k2
  subst k2
  simp only [tryMain, List.zipIdx_cons, List.map_cons, Command.main, hone]

theorem mainLoop_directory (gen : Work → Res (List Bit)) (t fuel : Nat) (bw : BitWriter) (crc : BitVec 32) :
    mainLoop gen true t fuel [] false bw crc = (bw, Res.div) := by
  induction fuel generalizing bw crc with
  | zero => rfl
  | succ fuel ih =>
    rw [mainLoop]
    have h : sendLoop true t [] false = Res.ok ([], [], false) := by
      cases t <;> rfl
    simp only [Bool.false_eq_true, if_false, h, flushLoop]
    exact ih bw crc

/-- **C93 is false** for a directory given to `compress`: with every option the program never ends, and leaves an empty
output file. -/
theorem C93_refuted_directory (numCpus : Nat) (threads : Option Nat) (enc : Option EncodingOptions) (p : Path)
    (more : List Path) (w : World) (i : Nat) (envs : Nat → ArgEnv)
    (hi : w.fs.dir p = some i) (hout : w.fs.dir (compressName p) = none) (ha : Alone (envs 0))
    (ho : (envs 0).openOk = true) (hc : (envs 0).createOk = true)
    (hr : (envs 0).reader (w.fs.data i) = ⟨[], true⟩) :
    ∃ w', tryMain numCpus (Opt.compress (p :: more) threads enc) envs w = (w', Outcome.div) ∧
      contentAt w'.fs (compressName p) = some [] := by
  have hne := one_opened (Command.compress (cliThreads threads numCpus) (cliStrategy enc)) (envs 0) p w i hi hout ha ho hc
  rcases hone : (Command.compress (cliThreads threads numCpus) (cliStrategy enc)).one (envs 0) p w with ⟨w', o⟩
  rw [hone] at hne
  obtain ⟨i', f1, -, f3, f4⟩ := compress_one _ _ _ _ _ _ _ hne ha hone
  rw [hi, Option.some.injEq] at f1
  subst f1
  have key : compressData euclid ((envs 0).reader (w.fs.data i)) (cliThreads threads numCpus) (cliStrategy enc)
      (envs 0).script = ([], Outcome.div) := by
    obtain ⟨bytes, res, k1, k2⟩ := compressData_cases euclid ((envs 0).reader (w.fs.data i))
      (cliThreads threads numCpus) (cliStrategy enc) (envs 0).script
    rw [hr] at k1 k2 ⊢
    have e : encodeStream euclid ⟨[], true⟩ Writer.empty (cliThreads threads numCpus) (cliStrategy enc)
        = (⟨[0x42, 0x5a, 0x68, 0x39], []⟩, Res.div) := by
      unfold encodeStream encodeStreamFuel
      simp only [mainLoop_directory]
      rfl
    rw [e, Prod.mk.injEq, Writer.mk.injEq] at k1
    obtain ⟨⟨rfl, -⟩, rfl⟩ := k1
    have hp : ∀ t : List UInt8, t.length ≤ 4 →
        (⟨[], (envs 0).script, []⟩ : BufFile).pushAll t = (⟨[], (envs 0).script, t⟩, true) := by
      intro t ht
      match t, ht with
      | [], _ => rfl
      | [a], _ => rfl
      | [a, b], _ => rfl
      | [a, b, c], _ => rfl
      | [a, b, c, d], _ => rfl
      | _ :: _ :: _ :: _ :: _ :: _, h => simp at h
    rcases k2 with ⟨-, k2⟩ | ⟨t, -, k4, k5, k6, -⟩
    · rw [k2, hp _ (by simp)]; rfl
    · rw [hp t (by simp at k4; omega)] at k6
      simp only [BufFile.push] at k6
      rw [if_pos (by simp at k4; unfold bufCapacity; omega)] at k6
      simp at k6
  rw [key] at f3 f4
  refine ⟨w', ?_, f3⟩
  simp only at f4
  subst f4
  simp only [tryMain, List.zipIdx_cons, List.map_cons, Command.main, hone]

/-- **C93 is false** for an error that does not come back: a file of fewer than 720000 bytes of which all bytes are read,
then a read fails, and the next one reports the end of the file: `compress` ends with status 0; after the deletion of
the file `decompress` ends with status 0, too, and the file that comes back is empty. For every path that ends in a file
name, every strategy, number of threads and way the reads are split. -/
theorem C93_refuted_lost (dir name : List UInt8) (hp : FilePath dir name) (threads : Nat) (ht : 1 ≤ threads)
    (strategy : Strategy) (w : World) (i : Nat) (e1 e2 : ArgEnv) (es : List REvent)
    (hi : w.fs.dir (dir ++ name) = some i)
    (hout : w.fs.dir (dir ++ name ++ [46, 98, 122, 50]) = none)
    (ha1 : Alone e1) (ha2 : Alone e2) (hr2 : ReadsAll e2)
    (ho1 : e1.openOk = true ∧ e1.createOk = true) (ho2 : e2.openOk = true ∧ e2.createOk = true)
    (hs1 : NoFileError e1.script) (hs2 : e2.script = [])
    (hes : Steady es) (hall : scriptBytes es = w.fs.data i) (hl : (w.fs.data i).length < 720000)
    (hr1 : e1.reader (w.fs.data i) = ⟨es ++ [REvent.fail], false⟩) :
    ∃ w1 w2, (Command.compress threads strategy).main [(dir ++ name, e1)] w = (w1, Outcome.ok) ∧
      Command.decompress.main [(dir ++ name ++ [46, 98, 122, 50], e2)] (remove (dir ++ name) w1) = (w2, Outcome.ok) ∧
      contentAt w2.fs (dir ++ name) = some [] := by
  obtain ⟨bytes, res, k1, k2, k3⟩ := compressData_noError euclid (e1.reader (w.fs.data i)) threads strategy e1.script hs1
  have h0 : encodeStream euclid (Reader.ofBytes []) Writer.empty threads strategy
      = (⟨[0x42, 0x5a, 0x68, 0x39, 0x17, 0x72, 0x45, 0x38, 0x50, 0x90, 0, 0, 0, 0], []⟩, Res.ok ()) := by
    cases threads with
    | zero => omega
    | succ n => rfl
  rw [hr1, C05_refuted_everything_lost euclid es [] Writer.empty threads ht strategy hes (by rw [hall]; exact hl)
    (by intro e he; simp at he), show scriptBytes [] = [] from rfl, h0, Prod.mk.injEq, Writer.mk.injEq] at k1
  obtain ⟨⟨rfl, -⟩, rfl⟩ := k1
  obtain ⟨w1, h1, -, h3⟩ := compress_decompress_of dir name hp threads strategy w i _ e1 e2 hi hout ha1 ha2 hr2 ho1 ho2 hs2
    (Prod.ext (k3 (by simp)) k2)
  obtain ⟨w2, h4, h5⟩ := h3 [] (by decide +kernel)
  exact ⟨w1, w2, h1, h4, h5⟩

/-- **C93**, what remains for `compress`: whatever errors the reads report, if the status is 0 (and no write failed) the
output file is a stream whose content is everything that was read, except that each error may have cost up to 719999
bytes read directly before it. Missing: that nothing is lost, or the loss is reported (`C93_refuted_lost`). -/
theorem C93_loss_is_bounded_partial (threads : Nat) (strategy : Strategy) (env : ArgEnv) (p : Path) (w w' : World) (i : Nat)
    (hi : w.fs.dir p = some i) (ha : Alone env) (hw : NoFileError env.script) (es : List REvent)
    (hr : env.reader (w.fs.data i) = ⟨es, false⟩) (hn : ∀ e ∈ es, e ≠ REvent.data [])
    (h : (Command.compress threads strategy).one env p w = (w', Outcome.ok)) :
    ∃ (file : List UInt8) (blocks : List (List UInt8 × List Bool)), contentAt w'.fs (compressName p) = some file ∧
      KeepsAllBut 719999 (happenings es) (contents blocks) ∧
      (∀ b ∈ blocks, generateBlockData euclid strategy (crc32 b.1) (rle1Encode b.1) = Res.ok (blockFrame b.1 b.2)) ∧
      PaddedTo8 (streamHeader 0x39 ++ blockFrames blocks ++ footerMagic ++ natToBits 32 (streamCrc blocks).toNat)
        (bytesBits file) := by
  obtain ⟨i', bytes, h1, h2, h3⟩ := C43_success_means_complete_partial threads strategy env p w w' ha hw h
  rw [hi, Option.some.injEq] at h1
  subst h1
  rw [hr] at h2
  obtain ⟨blocks, seen, unseen, b1, b2, b3, b4, b5⟩ := C05_loss_per_error_partial _ euclid es _ threads strategy h2
  rw [b3 hn, List.append_nil] at b1
  exact ⟨bytes, blocks, h3, by rw [b1]; exact b2, b4, b5⟩

/-- `decompress` in either kind of build. -/
def IsDecompress (c : Command) : Prop := c = Command.decompress ∨ c = Command.decompressRelease

theorem decompress_run_error (c : Command) (hc : IsDecompress c) (pre post : List REvent) (tail tail' : Bool)
    (h : (c.run ⟨pre ++ REvent.fail :: post, tail⟩ []).2 = Outcome.ok) :
    c.run ⟨pre ++ post, tail'⟩ [] = c.run ⟨pre ++ REvent.fail :: post, tail⟩ [] := by
  rcases hc with rfl | rfl
  · simp only [Command.run] at h ⊢
    unfold decompressData at h ⊢
    rw [List.map_nil] at h ⊢
    have hk : (decodeStream ⟨pre ++ REvent.fail :: post, tail⟩ Writer.empty).2 = Res.ok () := by
      unfold Writer.empty
      generalize decodeStream ⟨pre ++ REvent.fail :: post, tail⟩ ⟨[], []⟩ = x at h ⊢
      obtain ⟨w1, (_ | _ | _ | _)⟩ := x <;> simp at h ⊢
    have := C53_read_error_is_not_completeness pre post tail tail' hk
    unfold Writer.empty at this
    rw [this]
  · simp only [Command.run] at h ⊢
    unfold Release.decompressData at h ⊢
    rw [List.map_nil] at h ⊢
    have hk : (Release.decodeStream ⟨pre ++ REvent.fail :: post, tail⟩ Writer.empty).2 = Res.ok () := by
      unfold Writer.empty
      generalize Release.decodeStream ⟨pre ++ REvent.fail :: post, tail⟩ ⟨[], []⟩ = x at h ⊢
      obtain ⟨w1, (_ | _ | _ | _)⟩ := x <;> simp at h ⊢
    have := C63_read_error_is_not_completeness pre post tail tail' hk
    unfold Writer.empty at this
    rw [this]

/-- **C93** for `decompress`, in both kinds of build: if a read of the input failed and the status is 0 all the same, then
nothing was lost: without the error the program does the same (the same files, the same status). For undisturbed writes. -/
theorem C93_decompress_reports (c : Command) (hc : IsDecompress c) (env env' : ArgEnv) (p : Path) (w w' : World) (i : Nat)
    (hi : w.fs.dir p = some i) (ha : Alone env) (hs : env.script = []) (pre post : List REvent) (tail tail' : Bool)
    (hr : env.reader (w.fs.data i) = ⟨pre ++ REvent.fail :: post, tail⟩)
    (henv' : env' = { env with reader := fun _ => ⟨pre ++ post, tail'⟩ })
    (h : c.one env p w = (w', Outcome.ok)) : c.one env' p w = (w', Outcome.ok) := by
  subst henv'
  rw [← h]
  have key : ∀ o : World × Option (List UInt8 × Nat), openBoth c.outName env p w = o →
      openBoth c.outName { env with reader := fun _ => ⟨pre ++ post, tail'⟩ } p w = o := fun o h => h
  unfold Command.one at h ⊢
  rcases ho : openBoth c.outName env p w with ⟨w1, (_ | ⟨input, j⟩)⟩
  · rw [ho] at h; simp at h
  · rw [key _ ho]
    rw [ho] at h
    have hin : input = w.fs.data i := by
      unfold openBoth at ho
      simp only [(ha _).1, (ha _).2.1, (ha _).2.2, hi] at ho
      repeat' split at ho
      all_goals simp_all
    subst hin
    simp only [hs, hr] at h ⊢
    have hk : (c.run ⟨pre ++ REvent.fail :: post, tail⟩ []).2 = Outcome.ok := by
      generalize c.run ⟨pre ++ REvent.fail :: post, tail⟩ [] = x at h
      obtain ⟨b, o⟩ := x
      simp only [Prod.mk.injEq] at h
      exact h.2
    rw [decompress_run_error c hc pre post tail tail' hk]

/-- **C93** for a directory given to `decompress`: a panic (status 101), in both kinds of build. -/
theorem C93_decompress_directory (c : Command) (hc : IsDecompress c) (env : ArgEnv) (p : Path) (w : World) (i : Nat)
    (hi : w.fs.dir p = some i) (hout : w.fs.dir (decompressName p) = none) (ha : Alone env)
    (ho : env.openOk = true) (hcr : env.createOk = true) (hr : env.reader (w.fs.data i) = ⟨[], true⟩) :
    (c.one env p w).2 = Outcome.panic := by
  have hn : w.fs.dir (c.outName p) = none := by rcases hc with rfl | rfl <;> exact hout
  have h : (c.one env p w).2 = (c.run (env.reader (w.fs.data i)) env.script).2 := by
    simp only [Command.one, openBoth, (ha _).1, (ha _).2.1, (ha _).2.2, hi, ho, hn, hcr, if_true]
  rw [h, hr]
  rcases hc with rfl | rfl <;> rfl

/-- A directory named `a`, and a file `b` of two bytes of which the read after the last byte fails once. -/
def unreadableDir : ArgEnv := { calmReads with reader := fun _ => ⟨[], true⟩ }
def failsOnce : ArgEnv := { calmReads with reader := fun d => ⟨[REvent.data d, REvent.fail], false⟩ }

/-- The hypotheses are met: the directory. -/
example : ∃ w', tryMain 4 (Opt.compress [[97], [98]] none none) (fun _ => unreadableDir) ⟨oneFile [], []⟩ = (w', Outcome.div) ∧
    contentAt w'.fs (compressName [97]) = some [] :=
  C93_refuted_directory 4 none none [97] [[98]] ⟨oneFile [], []⟩ 0 (fun _ => unreadableDir) rfl rfl calmReads_ok.1 rfl rfl rfl

example : (tryMain 4 (Opt.compress [[97]] none (some (kMeansOf none none)))
    (fun _ => { calmReads with reader := fun d => ⟨[REvent.data d], true⟩ }) ⟨oneFile [104, 105], []⟩).2 = Outcome.div :=
  C93_refuted_never_ends 4 none _ (Or.inr ⟨6, 3, by omega, rfl⟩) [97] [] ⟨oneFile [104, 105], []⟩ 0 _ rfl rfl calmReads_ok.1
    rfl rfl (by intro e he; simp [calmReads, calm] at he) ⟨[REvent.data [104, 105]], rfl, by simp⟩

/-- The hypotheses are met: the file "hi" is lost. -/
example : ∃ w1 w2, (Command.compress 4 Strategy.single).main [([97], failsOnce)] ⟨oneFile [104, 105], []⟩ = (w1, Outcome.ok) ∧
    Command.decompress.main [([97, 46, 98, 122, 50], calmReads)] (remove [97] w1) = (w2, Outcome.ok) ∧
    contentAt w2.fs [97] = some [] :=
  C93_refuted_lost [] [97] ⟨Or.inl rfl, by decide, by decide, by decide, by decide⟩ 4 (by omega) Strategy.single ⟨oneFile [104, 105], []⟩ 0 failsOnce
    calmReads [REvent.data [104, 105]] rfl rfl calmReads_ok.1 calmReads_ok.1 calmReads_ok.2 ⟨rfl, rfl⟩ ⟨rfl, rfl⟩
    (by intro e he; simp [failsOnce, calmReads, calm] at he) rfl
    (by intro e he; simp at he; exact Or.inr ⟨_, by simp, he⟩) rfl (by decide) rfl

/-- The hypotheses of `C93_decompress_reports` are met: the error comes behind a complete stream. -/
example : (Command.decompress.one failsOnce [97, 46, 98, 122, 50] ⟨bz2File, []⟩).2 = Outcome.ok := by decide +kernel

/-- Instance of C93_no_success_partial: a read error after two bytes that stays. -/
example (w' : World) : (Command.compress 4 Strategy.single).one { calmReads with reader := fun d => ⟨[REvent.data d], true⟩ } [97]
    ⟨oneFile [104, 105], []⟩ ≠ (w', Outcome.ok) :=
  C93_no_success_partial 4 Strategy.single { calmReads with reader := fun d => ⟨[REvent.data d], true⟩ } [97] ⟨oneFile [104, 105], []⟩ w' 0
    rfl (fun _ => ⟨rfl, rfl, rfl⟩) ⟨[REvent.data [104, 105]], rfl, by simp⟩

/-- Instance of C93_loss_is_bounded_partial: one transient error; the run ends with status 0. -/
example : ∃ (file : List UInt8) (blocks : List (List UInt8 × List Bool)),
    contentAt ((Command.compress 4 Strategy.single).one failsOnce [97] ⟨oneFile [104, 105], []⟩).1.fs [97, 46, 98, 122, 50] = some file ∧
      KeepsAllBut 719999 [some 104, some 105, none] (contents blocks) := by
  obtain ⟨file, blocks, h1, h2, -⟩ := C93_loss_is_bounded_partial 4 Strategy.single failsOnce [97] ⟨oneFile [104, 105], []⟩ _ 0 rfl
    (fun _ => ⟨rfl, rfl, rfl⟩) (by intro e he; simp [failsOnce, calmReads, calm] at he)
    [REvent.data [104, 105], REvent.fail] rfl (by decide) (Prod.ext rfl (by decide +kernel))
  have hn : compressName [97] = [97, 46, 98, 122, 50] := by decide +kernel
  rw [hn] at h1
  exact ⟨file, blocks, h1, h2⟩

end Ribzip2
