import Verif.Props.Together
import Verif.Props.ManyFiles
import Verif.Props.Unreadable
/- Property C95: the program is killed. -/
namespace Ribzip2
open Spec Together

theorem reach_alone {j : Job} {fs0 : FileSys} {s : State} (h : Together.Reach [j] fs0 s) : ReachApart [j] fs0 s := by
  induction h with
  | init => exact ReachApart.init
  | step s s' _ hs ih =>
    refine ReachApart.step s s' ih hs fun k l j1 j2 _ _ hkl h1 h2 _ _ _ => ?_
    have e1 := (List.getElem?_eq_some_iff.1 h1).1
    have e2 := (List.getElem?_eq_some_iff.1 h2).1
    simp only [List.length_cons, List.length_nil] at e1 e2
    omega

theorem unrelated_alone (j : Job) : Unrelated [j] := by
  intro k l j1 j2 hkl h1 h2
  have e1 := (List.getElem?_eq_some_iff.1 h1).1
  have e2 := (List.getElem?_eq_some_iff.1 h2).1
  simp only [List.length_cons, List.length_nil] at e1 e2
  omega

/-- **C95**, what is left: the program is killed at any moment of a run. The files that were there are unchanged, at no
other path than that of the output there is anything new, and if there is a new file it is the beginning of what the run
would have written, however its writes go; all of it if the run had ended. -/
theorem C95_what_is_left (j : Job) (fs0 : FileSys) (hw : WellFormed fs0) (s : State) (h : Together.Reach [j] fs0 s) :
    (∀ p bytes, contentAt fs0 p = some bytes → contentAt s.fs p = some bytes) ∧
    (∀ p, p ≠ j.out → contentAt s.fs p = contentAt fs0 p) ∧
    ∀ file, contentAt fs0 j.out = none → contentAt s.fs j.out = some file →
      ∃ input, contentAt fs0 j.path = some input ∧ file <+: (j.result input).1 ∧
        ∀ o, s.pcs = [Pc.ended o] → file = (j.result input).1 ∧ o = (j.result input).2 := by
  obtain ⟨h1, h2⟩ := C90_existing_files_unchanged [j] fs0 hw s h
  refine ⟨h1, fun p hp => h2 p (by simpa using hp), fun file h0 hf => ?_⟩
  have hinv := reachApart_inv hw (unrelated_alone j) (reach_alone h)
  rw [contentAt_none] at h0
  simp only [contentAt, Option.map_eq_some_iff] at hf
  obtain ⟨i, hi, rfl⟩ := hf
  rcases hinv.origin j.out with h3 | ⟨k, j', pc, hj, hpc, -, ho⟩
  · rw [h3, h0] at hi
    simp at hi
  · obtain ⟨rfl, rfl⟩ : k = 0 ∧ j' = j := by
      cases k with
      | zero => simpa using hj.symm
      | succ k => simp at hj
    have hme := hinv.pc 0 j' pc hj hpc
    cases pc with
    | writing x o input =>
      obtain ⟨⟨-, i0, g1, g2⟩, -, g3, -, -, -, g4⟩ := hme
      rw [hi, Option.some.injEq] at g3
      subst g3
      refine ⟨input, by rw [contentAt, g1, g2]; rfl, by rw [g4]; exact List.take_prefix _ _, fun o he => ?_⟩
      rw [he] at hpc
      simp at hpc
    | ended o =>
      obtain ⟨x, input, ⟨-, i0, g1, g2⟩, -, g3, -, -, g4, g5⟩ := hme
      rw [hi, Option.some.injEq] at g3
      subst g3
      refine ⟨input, by rw [contentAt, g1, g2]; rfl, by rw [g4], fun o' he => ⟨g4, ?_⟩⟩
      rw [he] at hpc
      simp only [List.getElem?_cons_zero, Option.some.injEq, Pc.ended.injEq] at hpc
      exact hpc.trans g5
    | start => exact ho.elim
    | opened _ => exact ho.elim
    | checked _ => exact ho.elim
    | refused => exact ho.elim

/-- The run has created its output and written `k` bytes. -/
theorem reach_beginning (j : Job) (fs0 : FileSys) (input : List UInt8) (hd : contentAt fs0 j.path = some input)
    (hn : contentAt fs0 j.out = none) (hop : j.openOk = true) (hcr : j.createOk = true) (k : Nat)
    (hk : k ≤ (j.result input).1.length) :
    ∃ fs n, Together.Reach [j] fs0 ⟨fs, [Pc.writing n k input]⟩ ∧
      contentAt fs j.out = some ((j.result input).1.take k) := by
  rw [contentAt_none] at hn
  simp only [contentAt, Option.map_eq_some_iff] at hd
  obtain ⟨i, hi, rfl⟩ := hd
  have r0 : Together.Reach [j] fs0 ⟨fs0, [Pc.start]⟩ := Together.Reach.init
  have r1 := Together.Reach.step _ _ r0 (Together.Step.step 0 j Pc.start (Pc.opened (fs0.data i)) fs0 rfl rfl (by
    simp only [Job.next, hi, hop]))
  have r2 := Together.Reach.step _ _ r1 (Together.Step.step 0 j (Pc.opened (fs0.data i)) (Pc.checked (fs0.data i)) fs0 rfl rfl (by
    simp only [Job.next, hn]))
  have r3 := Together.Reach.step _ _ r2 (Together.Step.step 0 j (Pc.checked (fs0.data i)) (Pc.writing fs0.next 0 (fs0.data i))
    (withNew fs0 j.out) rfl rfl (by simp only [Job.next, hcr, if_true, FileSys.create, hn, withNew]))
  have hdir : (withNew fs0 j.out).dir j.out = some fs0.next := by simp [withNew]
  have hdat : (withNew fs0 j.out).data fs0.next = [] := by simp [withNew]
  generalize withNew fs0 j.out = f at r3 hdir hdat
  generalize fs0.next = n at r3 hdir hdat
  have r4 := reach_write 0 j rfl n (fs0.data i) ((j.result (fs0.data i)).1.take k) _ 0 ((j.result (fs0.data i)).1.drop k) r3 rfl
    (by rw [List.drop_zero, List.take_append_drop]) (Nat.zero_le _)
  rw [List.length_take, Nat.min_eq_left hk, Nat.zero_add] at r4
  refine ⟨_, _, r4, ?_⟩
  simp only [contentAt, FileSys.put, hdir, hdat, Option.map_some, if_true, List.take_nil, List.drop_nil, List.append_nil,
    List.nil_append]

/-- **C95**: every beginning can be what is left: for every `k` there is a moment of the run at which its output holds exactly
the first `k` bytes, while everything else is as it was. -/
theorem C95_every_beginning_occurs (j : Job) (fs0 : FileSys) (hw : WellFormed fs0) (input : List UInt8)
    (hd : contentAt fs0 j.path = some input) (hn : contentAt fs0 j.out = none) (hop : j.openOk = true)
    (hcr : j.createOk = true) (k : Nat) (hk : k ≤ (j.result input).1.length) :
    ∃ s, Together.Reach [j] fs0 s ∧ contentAt s.fs j.out = some ((j.result input).1.take k) ∧
      ∀ p, p ≠ j.out → contentAt s.fs p = contentAt fs0 p := by
  obtain ⟨fs, n, h1, h2⟩ := reach_beginning j fs0 input hd hn hop hcr k hk
  exact ⟨_, h1, h2, (C95_what_is_left j fs0 hw _ h1).2.1⟩

/-- **C95**: a run that is not killed ends, unless the library runs forever. -/
theorem C95_ends (j : Job) (fs0 : FileSys) (input : List UInt8) (hd : contentAt fs0 j.path = some input)
    (hn : contentAt fs0 j.out = none) (hop : j.openOk = true) (hcr : j.createOk = true)
    (hdiv : (j.result input).2 ≠ Outcome.div) :
    ∃ s, Together.Reach [j] fs0 s ∧ contentAt s.fs j.out = some (j.result input).1 ∧
      s.pcs = [Pc.ended (j.result input).2] := by
  obtain ⟨fs, n, h1, h2⟩ := reach_beginning j fs0 input hd hn hop hcr (j.result input).1.length (Nat.le_refl _)
  have h3 := Together.Reach.step _ _ h1 (Together.Step.step 0 j _ _ _ rfl rfl
    (next_ends j fs n _ input (Nat.le_refl _) hdiv))
  exact ⟨_, h3, by rw [h2, List.take_length], rfl⟩

/-- What `decompress` makes of the beginning of a compressed file. -/
theorem decompress_cut (c : Command) (hc : IsDecompress c) (r : Reader) (es : List REvent) (hr : r = ⟨es, false⟩)
    (hes : Steady es) (d bytes file : List UInt8) (hf : scriptBytes es = file) (hp : file <+: bytes)
    (hb : decodeBytes bytes = Res.ok d) :
    (c.run r []).1 <+: d ∧ ((c.run r []).2 = Outcome.ok ∧ (c.run r []).1 = d ∨ (c.run r []).2 = Outcome.panic) := by
  obtain ⟨s, hs⟩ := hp
  have hpre : delivered (Reader.ofBytes bytes).events = delivered (Reader.ofBytes file).events ++ s := by
    simp [Reader.ofBytes, ← hs]
  subst hr
  rcases hc with rfl | rfl
  · have r2 : decodeStream ⟨es, false⟩ ⟨[], []⟩ = decodeStream (Reader.ofBytes file) Writer.empty := by
      rw [Writer.empty, decodeStream_reliable, decodeStream_reliable, delivered_steady _ hes, hf]
      simp [Reader.ofBytes]
    have h16 := C16_output_on_prefix_is_prefix _ _ s hpre
    have h15 := C15_ok_on_prefix_is_ok_on_whole _ _ s hpre
    have hdiv := C18_decode_terminates (Reader.ofBytes file) Writer.empty
    simp only [Command.run]
    unfold decompressData
    unfold decodeBytes at hb
    simp only [List.map_nil, r2]
    generalize decodeStream (Reader.ofBytes bytes) Writer.empty = x at hb h15 h16
    generalize decodeStream (Reader.ofBytes file) Writer.empty = y at h15 h16 hdiv ⊢
    obtain ⟨w1, (_ | _ | _ | _)⟩ := x <;> simp at hb
    subst hb
    obtain ⟨w2, (_ | _ | _ | _)⟩ := y <;> simp at h15 h16 hdiv ⊢ <;> first | exact h16 | exact ⟨h16, by rw [h15]⟩
  · have hb : Release.decodeBytes bytes = Res.ok d := by
      rw [release_decodeBytes bytes (by rw [hb]; simp), hb]
    have r2 : Release.decodeStream ⟨es, false⟩ ⟨[], []⟩ = Release.decodeStream (Reader.ofBytes file) Writer.empty := by
      rw [Writer.empty, Release.decodeStream_reliable, Release.decodeStream_reliable, delivered_steady _ hes, hf]
      simp [Reader.ofBytes]
    have h16 := C63_output_on_prefix_is_prefix _ _ s hpre
    have h15 := C63_ok_on_prefix_is_ok_on_whole _ _ s hpre
    have hdiv := C63_decode_terminates (Reader.ofBytes file) Writer.empty
    simp only [Command.run]
    unfold Release.decompressData
    unfold Release.decodeBytes at hb
    simp only [List.map_nil, r2]
    generalize Release.decodeStream (Reader.ofBytes bytes) Writer.empty = x at hb h15 h16
    generalize Release.decodeStream (Reader.ofBytes file) Writer.empty = y at h15 h16 hdiv ⊢
    obtain ⟨w1, (_ | _ | _ | _)⟩ := x <;> simp at hb
    subst hb
    obtain ⟨w2, (_ | _ | _ | _)⟩ := y <;> simp at h15 h16 hdiv ⊢ <;> first | exact h16 | exact ⟨h16, by rw [h15]⟩

/-- **C95**, `compress`: the file `j.path` holds `d`, which by itself comes back from the library; `compress` is killed at any
moment, and what there is of its output is later given, under any name, to `decompress` of either kind of build.
`decompress` ends with a panic, having written a beginning of `d`, or with status 0, having written all of `d`. The
writes of `compress` may have gone in any way. For every number of threads and every strategy. -/
theorem C95_killed_compress (j : Job) (threads : Nat) (ht : 1 ≤ threads) (strategy : Strategy)
    (hc : j.cmd = Command.compress threads strategy)
    (hr : ∀ bytes, ∃ es, j.reader bytes = ⟨es, false⟩ ∧ Steady es ∧ scriptBytes es = bytes)
    (fs0 : FileSys) (hw : WellFormed fs0) (d bytes : List UInt8) (hd : contentAt fs0 j.path = some d)
    (hb : encodeBytes euclid d threads strategy = Res.ok bytes) (hback : decodeBytes bytes = Res.ok d)
    (hn : contentAt fs0 j.out = none) (s : State) (h : Together.Reach [j] fs0 s) (file : List UInt8)
    (hf : contentAt s.fs j.out = some file)
    -- later
    (c : Command) (hdec : IsDecompress c) (env : ArgEnv) (he : Undisturbed env) (hs : env.script = []) (q : Path) (w : World)
    (hwf : WellFormed w.fs) (hq : contentAt w.fs q = some file) (hqn : contentAt w.fs (decompressName q) = none) :
    ∃ w' out, contentAt w'.fs (decompressName q) = some out ∧ out <+: d ∧
      (c.one env q w = (w', Outcome.ok) ∧ out = d ∨ c.one env q w = (w', Outcome.panic)) := by
  obtain ⟨-, -, hleft⟩ := C95_what_is_left j fs0 hw s h
  obtain ⟨input, g1, g2, -⟩ := hleft file hn hf
  rw [hd, Option.some.injEq] at g1
  subst g1
  -- what `compress` writes is a prefix of the compressed data
  have hpre : file <+: bytes := by
    obtain ⟨es, e1, e2, e3⟩ := hr d
    obtain ⟨b, res, k1, k2, -⟩ := compressData_prefix euclid (j.reader d) threads strategy j.script
    rw [e1, encodeStream_steady _ _ _ _ _ e2 ht, e3, ← encodeStream_ofBytes _ _ _ _ _ ht] at k1
    unfold encodeBytes at hb
    rw [k1] at hb
    have : b = bytes := by cases res <;> simp at hb; exact hb
    subst this
    refine g2.trans ?_
    rw [Job.result, hc]
    exact k2
  obtain ⟨es, e1, e2, e3⟩ := he.reads file
  obtain ⟨h1, h2⟩ := decompress_cut c hdec (env.reader file) es e1 e2 d bytes file e3 hpre hback
  have hname : c.outName = decompressName := by rcases hdec with rfl | rfl <;> rfl
  rw [← hname] at hqn ⊢
  obtain ⟨w', m1, -, m2, -⟩ := one_content c env q w file (c.run (env.reader file) []).1 (c.run (env.reader file) []).2 hwf hq hqn
    he.alone he.opens he.creates (by rw [hs])
  refine ⟨w', _, m2, h1, ?_⟩
  rcases h2 with ⟨h3, h4⟩ | h3
  · exact Or.inl ⟨by rw [m1, h3], h4⟩
  · exact Or.inr (by rw [m1, h3])

/-- **C95**, again: after a run was killed at a moment when its output was there, the same command refuses, with exit status 1,
and changes nothing: what is left stays as it is until the user deletes it. -/
theorem C95_again_refused (j : Job) (fs0 : FileSys) (s : State) (h : Together.Reach [j] fs0 s) (file : List UInt8)
    (hf : contentAt s.fs j.out = some file) (env : ArgEnv) (ha : Alone env) (t : List Nat) :
    j.cmd.one env j.path ⟨s.fs, t⟩ = (⟨s.fs, t⟩, Outcome.fileError) := by
  clear h
  simp only [contentAt, Option.map_eq_some_iff] at hf
  obtain ⟨i, hi, -⟩ := hf
  have hi : s.fs.dir (j.cmd.outName j.path) = some i := hi
  simp only [Command.one, openBoth, (ha _).1, (ha _).2.1, (ha _).2.2, hi]
  cases s.fs.dir j.path <;> cases env.openOk <;> rfl

/-- The full property for a command and for inputs with the property `good`: an undisturbed run is killed at any moment; what it
leaves under the name of its output is complete, or can be told from a complete output: no undisturbed run of the
command, on whatever good input under this name, ends with status 0 and leaves the same bytes. -/
def InterruptedNoticed (c : Command) (good : List UInt8 → Prop) : Prop :=
  ∀ (j : Job) (fs0 : FileSys) (input : List UInt8), j.cmd = c → Undisturbed (aloneEnv j) → WellFormed fs0 →
    contentAt fs0 j.path = some input → good input → contentAt fs0 j.out = none →
    ∀ (s : State) (file : List UInt8), Together.Reach [j] fs0 s → contentAt s.fs j.out = some file →
      file = (j.result input).1 ∨
      ∀ (j' : Job) (fs1 : FileSys) (input' : List UInt8), j'.cmd = c → j'.path = j.path → Undisturbed (aloneEnv j') →
        WellFormed fs1 → contentAt fs1 j'.path = some input' → good input' → contentAt fs1 j'.out = none →
        ∀ s', Together.Reach [j'] fs1 s' → s'.pcs = [Pc.ended Outcome.ok] → contentAt s'.fs j'.out ≠ some file

/-- **C95** holds for `compress`, with every number of threads and every strategy, on the data that comes back from the
library. Missing from the full property: `decompress`, for which it is false (`C95_refuted`). -/
theorem C95_compress_noticed_partial (threads : Nat) (ht : 1 ≤ threads) (strategy : Strategy) :
    InterruptedNoticed (Command.compress threads strategy)
      (fun d => ∃ bytes, encodeBytes euclid d threads strategy = Res.ok bytes ∧ decodeBytes bytes = Res.ok d) := by
  intro j fs0 d hc hu hw hd ⟨bytes, hb, hback⟩ hn s file h hf
  rw [or_iff_not_imp_right]
  intro hex
  simp only [not_forall, not_not] at hex
  obtain ⟨j', fs1, d', hc', hp', hu', hw', hd', ⟨bytes', hb', hback'⟩, hn', s', h', he', hf'⟩ := hex
  obtain ⟨i1, a1, a2, -⟩ := (C95_what_is_left j fs0 hw s h).2.2 file hn hf
  obtain ⟨i2, b1, -, b2⟩ := (C95_what_is_left j' fs1 hw' s' h').2.2 file hn' hf'
  rw [hd, Option.some.injEq] at a1
  rw [hd', Option.some.injEq] at b1
  subst a1 b1
  have r1 : j.result d = (bytes, Outcome.ok) := by
    rw [Job.result, hc]
    exact compress_run threads ht strategy (aloneEnv j) hu d bytes hb
  have r2 : j'.result d' = (bytes', Outcome.ok) := by
    rw [Job.result, hc']
    exact compress_run threads ht strategy (aloneEnv j') hu' d' bytes' hb'
  obtain ⟨b3, -⟩ := b2 _ he'
  rw [r2] at b3
  rw [r1] at a2 ⊢
  subst b3
  -- what is left decodes to `d'`, so `d' = d`
  obtain ⟨es, e1, e2, e3⟩ := hu.reads file
  obtain ⟨k1, k2⟩ := decompress_cut Command.decompress (Or.inl rfl) ((aloneEnv j).reader file) es e1 e2 d bytes file e3 a2 hback
  have h3 := decompress_run false { aloneEnv j with script := [] } ⟨hu.alone, hu.reads, hu.opens, hu.creates, by simp [NoFileError]⟩ rfl
    d' file hback'
  have h3 : Command.decompress.run ((aloneEnv j).reader file) [] = (d', Outcome.ok) := h3
  rw [h3] at k2
  rcases k2 with ⟨-, k2⟩ | k2
  · simp only at k2
    subst k2
    rw [hb] at hb'
    simpa using hb'.symm
  · simp at k2

/-- A file system with the one file `a.bz2`. -/
def bz2Only (bytes : List UInt8) : FileSys :=
  ⟨fun p => if p = [97, 46, 98, 122, 50] then some 0 else none, fun i => if i = 0 then bytes else [], 1⟩

/-- `decompress a.bz2`. -/
def decompressJob (c : Command) : Job := ⟨c, [97, 46, 98, 122, 50], true, calmReads.reader, true, []⟩

theorem bz2Only_wf (bytes : List UInt8) : WellFormed (bz2Only bytes) := by
  intro p i h
  simp only [bz2Only] at h ⊢
  split at h <;> simp at h
  omega

theorem decompressJob_undisturbed (c : Command) : Undisturbed (aloneEnv (decompressJob c)) :=
  ⟨fun _ => ⟨rfl, rfl, rfl⟩, calmReads_ok.2, rfl, rfl, by simp [NoFileError, decompressJob, aloneEnv]⟩

/-- **C95**, `decompress`: nothing marks an incomplete output. If a beginning `d.take k` of the content is itself something that
has been compressed, then what a run killed after `k` bytes leaves is what a run on that other file leaves when it has ended
with status 0. For both kinds of build. -/
theorem C95_decompress_unmarked (c : Command) (hc : IsDecompress c) (d bytes bytes' : List UInt8) (k : Nat) (hk : k ≤ d.length)
    (hb : decodeBytes bytes = Res.ok d) (hb' : decodeBytes bytes' = Res.ok (d.take k)) :
    ∃ s s', Together.Reach [decompressJob c] (bz2Only bytes) s ∧ contentAt s.fs [97] = some (d.take k) ∧
      Together.Reach [decompressJob c] (bz2Only bytes') s' ∧ contentAt s'.fs [97] = some (d.take k) ∧
      s'.pcs = [Pc.ended Outcome.ok] := by
  have hrun : ∀ (bytes d : List UInt8), decodeBytes bytes = Res.ok d → (decompressJob c).result bytes = (d, Outcome.ok) := by
    intro bytes d hb
    rcases hc with rfl | rfl
    · exact decompress_run false (aloneEnv (decompressJob Command.decompress)) (decompressJob_undisturbed _) rfl d bytes hb
    · exact decompress_run true (aloneEnv (decompressJob Command.decompressRelease)) (decompressJob_undisturbed _) rfl d bytes hb
  have hout : (decompressJob c).out = [97] := by rcases hc with rfl | rfl <;> decide
  have hn : ∀ bytes, contentAt (bz2Only bytes) (decompressJob c).out = none := by
    intro bytes
    rw [hout]
    rfl
  obtain ⟨s, h1, h2, -⟩ := C95_every_beginning_occurs (decompressJob c) (bz2Only bytes) (bz2Only_wf _) bytes rfl (hn _) rfl rfl k (by
    rw [hrun bytes d hb]; exact hk)
  rw [hrun bytes d hb, hout] at h2
  have hlen : (d.take k).length = k := by rw [List.length_take]; omega
  obtain ⟨s', h3, h4⟩ := C95_ends (decompressJob c) (bz2Only bytes') bytes' rfl (hn _) rfl rfl (by
    rw [hrun bytes' _ hb']; simp)
  rw [hrun bytes' _ hb'] at h4
  rw [hout] at h4
  exact ⟨s, s', h1, h2, h3, h4.1, h4.2⟩

/-- **C95** is false for `decompress`, in both kinds of build, even on files that `compress` has made. -/
theorem C95_refuted (c : Command) (hc : IsDecompress c) :
    ¬ InterruptedNoticed c (fun b => ∃ d, encodeBytes euclid d 1 Strategy.single = Res.ok b ∧ decodeBytes b = Res.ok d) := by
  intro h
  obtain ⟨b1, e1, e2⟩ := C01_round_trip_terminated_partial euclid [3, 2] 1 1 (by omega) (by simp) (by decide) (by decide)
  obtain ⟨b2, f1, f2⟩ := C01_round_trip_terminated_partial euclid [3] 2 1 (by omega) (by simp) (by decide) (by decide)
  obtain ⟨s, s', h1, h2, h3, h4, h5⟩ := C95_decompress_unmarked c hc _ b1 b2 2 (by simp) e2 f2
  have hout : (decompressJob c).out = [97] := by rcases hc with rfl | rfl <;> decide
  have hres : ((decompressJob c).result b1).1 = [3, 2, 1] := by
    rcases hc with rfl | rfl
    · exact congrArg Prod.fst
        (decompress_run false (aloneEnv (decompressJob Command.decompress)) (decompressJob_undisturbed _) rfl _ b1 e2)
    · exact congrArg Prod.fst
        (decompress_run true (aloneEnv (decompressJob Command.decompressRelease)) (decompressJob_undisturbed _) rfl _ b1 e2)
  rcases h (decompressJob c) (bz2Only b1) b1 rfl (decompressJob_undisturbed c) (bz2Only_wf _) rfl ⟨_, e1, e2⟩
    (by rw [hout]; rfl) s _ h1 (by rw [hout]; exact h2) with h6 | h6
  · rw [hres] at h6
    simp at h6
  · exact h6 (decompressJob c) (bz2Only b2) b2 rfl rfl (decompressJob_undisturbed c) (bz2Only_wf _) rfl ⟨_, f1, f2⟩
      (by rw [hout]; rfl) s' h3 h5 (by rw [hout]; exact h4)

/-- Instances: `compress a` is killed when 20 of the 42 bytes of "banana" are there; `decompress` of these
20 bytes, in a release build, panics. -/
example : ∃ s, Together.Reach [bananaJob Strategy.single []] oneBanana s ∧
    contentAt s.fs [97, 46, 98, 122, 50] = some (bananaSingle.take 20) ∧
    (Command.decompressRelease.one calmReads [97, 46, 98, 122, 50] ⟨bz2Only (bananaSingle.take 20), []⟩).2 = Outcome.panic := by
  obtain ⟨s, h1, h2, -⟩ := C95_every_beginning_occurs (bananaJob Strategy.single []) oneBanana oneBanana_wf banana rfl (by decide +kernel)
    rfl rfl 20 (by rw [bananaJob_result _ _ bananaSingle_eq]; decide)
  rw [bananaJob_result _ _ bananaSingle_eq] at h2
  exact ⟨s, h1, h2, by decide +kernel⟩

theorem bananaJob_undisturbed (strategy : Strategy) : Undisturbed (aloneEnv (bananaJob strategy [])) :=
  ⟨fun _ => ⟨rfl, rfl, rfl⟩, calmReads_ok.2, rfl, rfl, by simp [NoFileError, bananaJob, aloneEnv]⟩

/-- Instances of C95_what_is_left, C95_again_refused and C95_killed_compress: `compress a` is killed when 20 bytes of the output
are written. What is there is a beginning of the output, a second `compress a` refuses, and `decompress a.bz2` on another
machine writes a beginning of the content. -/
example : ∃ s, Together.Reach [bananaJob Strategy.single []] oneBanana s ∧
    contentAt s.fs [97, 46, 98, 122, 50] = some (bananaSingle.take 20) ∧
    contentAt s.fs [97] = some banana ∧
    (Command.compress 1 Strategy.single).one calmReads [97] ⟨s.fs, []⟩ = (⟨s.fs, []⟩, Outcome.fileError) ∧
    ∃ w' out, contentAt w'.fs [97] = some out ∧ out <+: banana ∧
      ((Command.decompress.one calmReads [97, 46, 98, 122, 50] ⟨bz2Only (bananaSingle.take 20), []⟩ = (w', Outcome.ok) ∧ out = banana) ∨
        Command.decompress.one calmReads [97, 46, 98, 122, 50] ⟨bz2Only (bananaSingle.take 20), []⟩ = (w', Outcome.panic)) := by
  obtain ⟨s, h1, h2, -⟩ := C95_every_beginning_occurs (bananaJob Strategy.single []) oneBanana oneBanana_wf banana rfl (by decide +kernel)
    rfl rfl 20 (by rw [bananaJob_result _ _ bananaSingle_eq]; decide)
  rw [bananaJob_result _ _ bananaSingle_eq] at h2
  refine ⟨s, h1, h2, (C95_what_is_left _ _ oneBanana_wf s h1).1 [97] banana rfl,
    C95_again_refused (bananaJob Strategy.single []) oneBanana s h1 _ h2 calmReads calmReads_ok.1 [], ?_⟩
  exact C95_killed_compress (bananaJob Strategy.single []) 1 (Nat.le_refl 1) Strategy.single rfl calmReads_ok.2 oneBanana oneBanana_wf
    banana bananaSingle rfl bananaSingle_eq (by decide +kernel) (by decide +kernel) s h1 _ h2
    Command.decompress (Or.inl rfl) calmReads (decompressJob_undisturbed Command.decompress) rfl [97, 46, 98, 122, 50]
    ⟨bz2Only (bananaSingle.take 20), []⟩ (bz2Only_wf _) rfl (by decide +kernel)

/-- Instance of C95_ends. -/
example : ∃ s, Together.Reach [bananaJob Strategy.single []] oneBanana s ∧
    contentAt s.fs [97, 46, 98, 122, 50] = some bananaSingle ∧ s.pcs = [Pc.ended Outcome.ok] := by
  have h := C95_ends (bananaJob Strategy.single []) oneBanana banana rfl (by decide +kernel) rfl rfl
    (by rw [bananaJob_result _ _ bananaSingle_eq]; decide)
  rwa [bananaJob_result _ _ bananaSingle_eq] at h

/-- Instance of C95_decompress_unmarked: the stream of "ab" interrupted after the first byte leaves what the stream of "a" gives. -/
example : ∃ s s', Together.Reach [decompressJob Command.decompress] (bz2Only sampleAB) s ∧ contentAt s.fs [97] = some [97] ∧
      Together.Reach [decompressJob Command.decompress] (bz2Only sampleA) s' ∧ contentAt s'.fs [97] = some [97] ∧
      s'.pcs = [Pc.ended Outcome.ok] :=
  C95_decompress_unmarked Command.decompress (Or.inl rfl) [97, 98] sampleAB sampleA 1 (by decide) (by decide +kernel) (by decide +kernel)

end Ribzip2
