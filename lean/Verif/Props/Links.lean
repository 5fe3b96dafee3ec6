import Verif.Spec.Links
import Verif.Props.Interrupted
/- Property C96: symbolic links. -/
namespace Ribzip2
open Spec

theorem follow_leads {fs : LinkSys} {n : Nat} {p q : Path} (h : fs.follow n p = some q) :
    LeadsTo fs p q ∧ ∀ t, fs.entry q ≠ some (Name.link t) := by
  induction n generalizing p with
  | zero =>
    unfold LinkSys.follow at h
    rcases he : fs.entry p with _ | ⟨i | t⟩ <;> simp only [he, reduceCtorEq, Option.some.injEq] at h
    · subst h
      exact ⟨LeadsTo.here p, by simp [he]⟩
    · subst h
      exact ⟨LeadsTo.here p, by simp [he]⟩
  | succ n ih =>
    unfold LinkSys.follow at h
    rcases he : fs.entry p with _ | ⟨i | t⟩ <;> simp only [he, Option.some.injEq] at h
    · subst h
      exact ⟨LeadsTo.here p, by simp [he]⟩
    · subst h
      exact ⟨LeadsTo.here p, by simp [he]⟩
    · obtain ⟨h1, h2⟩ := ih h
      exact ⟨LeadsTo.link p t q he h1, h2⟩

/-- A new file. -/
def LinkSys.withFile (fs : LinkSys) (q : Path) (bytes : List UInt8) : LinkSys :=
  ⟨fun r => if r = q then some (Name.file fs.next) else fs.entry r, fun j => if j = fs.next then bytes else fs.data j,
    fs.next + 1⟩

/-- Adding a name that was free does not change where a path leads. -/
theorem follow_withFile {fs : LinkSys} {q : Path} (bytes : List UInt8) (hq : fs.entry q = none) (n : Nat) (p : Path) :
    (fs.withFile q bytes).follow n p = fs.follow n p := by
  have h : ∀ r, r ≠ q → (fs.withFile q bytes).entry r = fs.entry r := fun r hr => if_neg hr
  have h' : (fs.withFile q bytes).entry q = some (Name.file fs.next) := if_pos rfl
  induction n generalizing p with
  | zero =>
    unfold LinkSys.follow
    by_cases hp : p = q
    · subst hp
      rw [h', hq]
    · rw [h p hp]
  | succ n ih =>
    unfold LinkSys.follow
    by_cases hp : p = q
    · subst hp
      rw [h', hq]
    · rw [h p hp]
      rcases fs.entry p with _ | ⟨j | t⟩ <;> simp [ih]

/-- What one argument does: it is refused and nothing changes, or one file is created, at the place to which the path of
the output leads. -/
theorem oneLinks_cases (c : Command) (env : ArgEnv) (p : Path) (fs : LinkSys) :
    c.oneLinks env p fs = (fs, Outcome.fileError) ∨
    ∃ i q, fs.lookup p = some i ∧ fs.follow maxLinks (c.outName p) = some q ∧ fs.entry q = none ∧
      c.oneLinks env p fs = (fs.withFile q (c.run (env.reader (fs.data i)) env.script).1,
        (c.run (env.reader (fs.data i)) env.script).2) := by
  unfold Command.oneLinks
  rcases hi : fs.lookup p with _ | i
  · exact Or.inl rfl
  rcases ho : env.openOk with _ | _
  · exact Or.inl rfl
  simp only
  rcases hl : fs.lookup (c.outName p) with _ | j
  · simp only
    by_cases hc : env.createOk = true
    · rw [if_pos hc]
      unfold LinkSys.create
      rcases hf : fs.follow maxLinks (c.outName p) with _ | q
      · exact Or.inl rfl
      · right
        have hq : fs.entry q = none := by
          unfold LinkSys.lookup at hl
          simp only [hf] at hl
          have := (follow_leads hf).2
          rcases he : fs.entry q with _ | ⟨x | t⟩
          · rfl
          · simp [he] at hl
          · exact absurd he (this t)
        refine ⟨i, q, rfl, rfl, hq, ?_⟩
        simp only [hq, LinkSys.put, LinkSys.withFile, Prod.mk.injEq, LinkSys.mk.injEq, true_and, and_true]
        funext j
        split <;> rfl
    · rw [if_neg hc]
      exact Or.inl rfl
  · exact Or.inl rfl

/-- **C96**, existing files: whatever links there are, all names that were there stand for what they stood for, reading a
path gives what it gave, and there is at most one new name. For every file system, command, file and behaviour of the
system. -/
theorem C96_existing_files_unchanged (c : Command) (env : ArgEnv) (p : Path) (fs : LinkSys) (hw : LinksWellFormed fs) :
    (∀ q e, fs.entry q = some e → (c.oneLinks env p fs).1.entry q = some e) ∧
    (∀ q d, contentVia fs q = some d → contentVia (c.oneLinks env p fs).1 q = some d) ∧
    (∀ q q', fs.entry q = none → fs.entry q' = none → (c.oneLinks env p fs).1.entry q ≠ none →
      (c.oneLinks env p fs).1.entry q' ≠ none → q = q') ∧
    LinksWellFormed (c.oneLinks env p fs).1 := by
  rcases oneLinks_cases c env p fs with h | ⟨i, q, h1, h2, h3, h4⟩
  · rw [h]
    exact ⟨fun _ _ h => h, fun _ _ h => h, fun q q' h _ h' => absurd h h', hw⟩
  · rw [h4]
    refine ⟨fun r e hr => ?_, fun r d hr => ?_, fun r r' hr hr' k k' => ?_, fun r x hr => ?_⟩
    · simp only [LinkSys.withFile]
      rw [if_neg (by rintro rfl; rw [h3] at hr; simp at hr)]
      exact hr
    · simp only [contentVia, LinkSys.lookup, follow_withFile _ h3, Option.map_eq_some_iff] at hr ⊢
      obtain ⟨x, hx, rfl⟩ := hr
      rcases hf : fs.follow maxLinks r with _ | t
      · simp [hf] at hx
      · simp only [hf] at hx
        rcases he : fs.entry t with _ | ⟨y | u⟩ <;> simp only [he, reduceCtorEq, Option.some.injEq] at hx
        subst hx
        have hne : t ≠ q := by rintro rfl; rw [h3] at he; simp at he
        have := hw t y he
        refine ⟨y, by simp [LinkSys.withFile, hne, he], ?_⟩
        simp only [LinkSys.withFile]
        rw [if_neg (by omega)]
    · simp only [LinkSys.withFile] at k k'
      have e1 : r = q := by
        by_contra hn
        rw [if_neg hn] at k
        exact k hr
      have e2 : r' = q := by
        by_contra hn
        rw [if_neg hn] at k'
        exact k' hr'
      rw [e1, e2]
    · simp only [LinkSys.withFile] at hr ⊢
      split at hr
      · simp only [Option.some.injEq, Name.file.injEq] at hr
        omega
      · have := hw r x hr
        omega

/-- **C96**, the output: an argument that is not refused leaves one new file. Its content is what the command writes for the
content to which the given path leads, reading the path of the output gives it, and it is at the place to which that path
leads, where nothing was. -/
theorem C96_where_the_output_is (c : Command) (env : ArgEnv) (p : Path) (fs fs' : LinkSys) (o : Outcome)
    (h : c.oneLinks env p fs = (fs', o)) (ho : o ≠ Outcome.fileError) :
    ∃ d q i, contentVia fs p = some d ∧ LeadsTo fs (c.outName p) q ∧ fs.entry q = none ∧ fs'.entry q = some (Name.file i) ∧
      c.run (env.reader d) env.script = (fs'.data i, o) ∧ contentVia fs' (c.outName p) = some (fs'.data i) := by
  rcases oneLinks_cases c env p fs with h' | ⟨i, q, h1, h2, h3, h4⟩
  · rw [h] at h'
    exact absurd (congrArg Prod.snd h') ho
  · rw [h] at h4
    simp only [Prod.mk.injEq] at h4
    obtain ⟨rfl, rfl⟩ := h4
    refine ⟨fs.data i, q, fs.next, by rw [contentVia, h1]; rfl, (follow_leads h2).1, h3, by simp [LinkSys.withFile],
      by simp [LinkSys.withFile], ?_⟩
    simp only [contentVia, LinkSys.lookup, follow_withFile _ h3, h2]
    simp [LinkSys.withFile]

/-- The full property: the output, if there is one, is a new file at the path of the output. -/
def OutputAtItsPath : Prop :=
  ∀ (c : Command) (env : ArgEnv) (p : Path) (fs fs' : LinkSys) (o : Outcome), LinksWellFormed fs →
    c.oneLinks env p fs = (fs', o) → o ≠ Outcome.fileError →
      ∃ i, fs'.entry (c.outName p) = some (Name.file i)

/-- **C96** holds if the path of the output is not a link. Missing from the full property: links that point nowhere
(`C96_refuted_every_dangling_link`). -/
theorem C96_output_at_its_path_partial (c : Command) (env : ArgEnv) (p : Path) (fs fs' : LinkSys) (o : Outcome)
    (h : c.oneLinks env p fs = (fs', o)) (ho : o ≠ Outcome.fileError)
    (hl : ∀ t, fs.entry (c.outName p) ≠ some (Name.link t)) :
    fs.entry (c.outName p) = none ∧ ∃ i, fs'.entry (c.outName p) = some (Name.file i) := by
  obtain ⟨d, q, i, -, h2, h3, h4, -⟩ := C96_where_the_output_is c env p fs fs' o h ho
  cases h2 with
  | here => exact ⟨h3, i, h4⟩
  | link _ t _ h5 => exact absurd h5 (hl t)

/-- **C96** fails at every link that points nowhere: if the path of the output is a link that leads to a path `q` where nothing
is, the output is written to `q`, wherever that is, and the link stays. For every command, file, and for every chain of at
most 40 links. -/
theorem C96_refuted_every_dangling_link (c : Command) (env : ArgEnv) (p : Path) (fs : LinkSys) (d : List UInt8) (t q : Path)
    (hd : contentVia fs p = some d) (hl : fs.entry (c.outName p) = some (Name.link t))
    (hf : fs.follow maxLinks (c.outName p) = some q) (hq : fs.entry q = none) (hop : env.openOk = true)
    (hcr : env.createOk = true) :
    ∃ fs', c.oneLinks env p fs = (fs', (c.run (env.reader d) env.script).2) ∧ q ≠ c.outName p ∧
      fs'.entry q = some (Name.file fs.next) ∧ fs'.data fs.next = (c.run (env.reader d) env.script).1 ∧
      fs'.entry (c.outName p) = some (Name.link t) := by
  simp only [contentVia, Option.map_eq_some_iff] at hd
  obtain ⟨i, hi, rfl⟩ := hd
  have hn : fs.lookup (c.outName p) = none := by simp [LinkSys.lookup, hf, hq]
  have hne : q ≠ c.outName p := by
    rintro rfl
    rw [hl] at hq
    simp at hq
  rcases oneLinks_cases c env p fs with h | ⟨i', q', h1, h2, h3, h4⟩
  · exfalso
    unfold Command.oneLinks at h
    simp only [hi, hop, hn, hcr, if_true, LinkSys.create, hf, hq, Prod.mk.injEq] at h
    have := congrArg LinkSys.next h.1
    simp [LinkSys.put] at this
  · rw [hi, Option.some.injEq] at h1
    rw [hf, Option.some.injEq] at h2
    subst h1 h2
    exact ⟨_, h4, hne, by simp [LinkSys.withFile], by simp [LinkSys.withFile], by
      simp only [LinkSys.withFile]
      rw [if_neg (Ne.symm hne)]
      exact hl⟩

/-- `a` holds "banana", `a.bz2` is a link to `b`, which does not exist. -/
def dangling : LinkSys where
  entry := fun q => if q = [97] then some (Name.file 0) else if q = [97, 46, 98, 122, 50] then some (Name.link [98]) else none
  data := fun i => if i = 0 then banana else []
  next := 1

/-- **C96** is false: `compress a` writes to `b`. -/
theorem C96_refuted : ¬ OutputAtItsPath := by
  intro h
  obtain ⟨fs', h1, h2, -, -, h5⟩ := C96_refuted_every_dangling_link (Command.compress 1 Strategy.single) calmReads [97] dangling banana
    [98] [98] (by decide +kernel) (by decide +kernel) (by decide +kernel) (by decide +kernel) rfl rfl
  obtain ⟨i, h6⟩ := h _ _ _ _ _ _ (by
    intro p i hp
    simp only [dangling] at hp ⊢
    split at hp
    · simp only [Option.some.injEq, Name.file.injEq] at hp
      omega
    · split at hp <;> simp at hp) h1 (by
    obtain ⟨es, e1, e2, e3⟩ := calmReads_ok.2 banana
    rw [Command.run, compressData_bytes (calmReads.reader banana) es banana bananaSingle 1 Strategy.single calmReads.script
      (Nat.le_refl 1) (by intro e he; simp [calmReads, calm] at he) e1 e2 e3 bananaSingle_eq]
    simp)
  rw [h5] at h6
  simp at h6

/-- `l` is a link to a link to `a`, which holds "zyx" and a zero; `c.bz2` is a link to itself. -/
def chain : LinkSys where
  entry := fun q => if q = [97] then some (Name.file 0) else if q = [108] then some (Name.link [109])
    else if q = [109] then some (Name.link [97]) else if q = [99, 46, 98, 122, 50] then some (Name.link [99, 46, 98, 122, 50])
    else if q = [99] then some (Name.file 0) else none
  data := fun i => if i = 0 then [122, 121, 120, 0] else []
  next := 1

/-- Instances: the input may be given by a link to a link, the output is then `l.bz2`, a new file; a link to itself counts as
not there, but nothing can be created in its place, so the argument is refused; "banana" ends up in `b`. -/
example : LinksWellFormed chain ∧ contentVia chain [108] = some [122, 121, 120, 0] ∧
    ((Command.compress 1 Strategy.single).oneLinks calmReads [108] chain).2 = Outcome.ok ∧
    ((Command.compress 1 Strategy.single).oneLinks calmReads [108] chain).1.entry [108, 46, 98, 122, 50] = some (Name.file 1) ∧
    ((Command.compress 1 Strategy.single).oneLinks calmReads [99] chain).2 = Outcome.fileError ∧
    ((Command.compress 1 Strategy.single).oneLinks calmReads [97] dangling).1.entry [98] = some (Name.file 1) := by
  refine ⟨?_, by decide +kernel, by decide +kernel, by decide +kernel, by decide +kernel, by decide +kernel⟩
  intro p i hp
  simp only [chain] at hp ⊢
  split at hp
  · simp only [Option.some.injEq, Name.file.injEq] at hp
    omega
  · split at hp
    · simp at hp
    · split at hp
      · simp at hp
      · split at hp
        · simp at hp
        · split at hp
          · simp only [Option.some.injEq, Name.file.injEq] at hp
            omega
          · simp at hp

/-- **C96**, no links: in a file system without links the program does what the model of the other properties
says. -/
theorem C96_without_links (c : Command) (env : ArgEnv) (p : Path) (w : World) (ha : Alone env) :
    c.oneLinks env p (withoutLinks w.fs) = (withoutLinks (c.one env p w).1.fs, (c.one env p w).2) := by
  have hf : ∀ n q, (withoutLinks w.fs).follow n q = some q := by
    intro n q
    unfold LinkSys.follow
    cases n <;> simp only [withoutLinks] <;> cases w.fs.dir q <;> rfl
  have hl : ∀ q, (withoutLinks w.fs).lookup q = w.fs.dir q := by
    intro q
    simp only [LinkSys.lookup, hf]
    simp only [withoutLinks]
    cases w.fs.dir q <;> rfl
  unfold Command.oneLinks
  simp only [hl, Command.one, openBoth, (ha _).1, (ha _).2.1, (ha _).2.2]
  rcases hi : w.fs.dir p with _ | i
  · rfl
  rcases hop : env.openOk with _ | _
  · rfl
  rcases ho : w.fs.dir (c.outName p) with _ | j
  · simp only
    by_cases hc : env.createOk = true
    · rw [if_pos hc, if_pos hc]
      simp only [LinkSys.create, hf, FileSys.create, ho]
      simp only [withoutLinks, ho, Option.map_none, LinkSys.put, FileSys.put, Prod.mk.injEq, LinkSys.mk.injEq, and_true]
      refine ⟨?_, rfl⟩
      funext r
      split <;> rfl
    · rw [if_neg hc, if_neg hc]
  · rfl

/-- The same for a command line with many files. -/
theorem C96_without_links_main (c : Command) (args : List (Path × ArgEnv)) (w : World) (ha : ∀ a ∈ args, Alone a.2) :
    c.mainLinks args (withoutLinks w.fs) = (withoutLinks (c.main args w).1.fs, (c.main args w).2) := by
  induction args generalizing w with
  | nil => rfl
  | cons a args ih =>
    obtain ⟨p, env⟩ := a
    rw [Command.mainLinks, Command.main, C96_without_links c env p w (ha (p, env) (by simp))]
    rcases hx : c.one env p w with ⟨w1, o⟩
    cases o with
    | ok => exact ih w1 fun a h => ha a (by simp [h])
    | fileError => rfl
    | panic => rfl
    | div => rfl

/-- **C96**, existing files, for a command line with many files. -/
theorem C96_existing_files_unchanged_main (c : Command) (args : List (Path × ArgEnv)) (fs : LinkSys) (hw : LinksWellFormed fs) :
    (∀ q e, fs.entry q = some e → (c.mainLinks args fs).1.entry q = some e) ∧
    (∀ q d, contentVia fs q = some d → contentVia (c.mainLinks args fs).1 q = some d) := by
  induction args generalizing fs with
  | nil => exact ⟨fun _ _ h => h, fun _ _ h => h⟩
  | cons a args ih =>
    obtain ⟨p, env⟩ := a
    obtain ⟨h1, h2, -, h4⟩ := C96_existing_files_unchanged c env p fs hw
    rw [Command.mainLinks]
    rcases hx : c.oneLinks env p fs with ⟨fs1, o⟩
    rw [hx] at h1 h2 h4
    cases o with
    | ok =>
      obtain ⟨k1, k2⟩ := ih fs1 h4
      exact ⟨fun q e h => k1 q e (h1 q e h), fun q d h => k2 q d (h2 q d h)⟩
    | fileError => exact ⟨h1, h2⟩
    | panic => exact ⟨h1, h2⟩
    | div => exact ⟨h1, h2⟩

theorem chain_wf : LinksWellFormed chain := by
  intro p i hp
  simp only [chain] at hp ⊢
  repeat' split at hp
  all_goals simp_all

/-- Instance of C96_existing_files_unchanged and C96_existing_files_unchanged_main. -/
example (c : Command) : contentVia (c.oneLinks calmReads [108] chain).1 [108] = some [122, 121, 120, 0] ∧
    contentVia (c.mainLinks [([108], calmReads), ([97], calmReads)] chain).1 [97] = some [122, 121, 120, 0] :=
  ⟨(C96_existing_files_unchanged c calmReads [108] chain chain_wf).2.1 [108] _ (by decide +kernel),
    (C96_existing_files_unchanged_main c [([108], calmReads), ([97], calmReads)] chain chain_wf).2 [97] _ (by decide +kernel)⟩

/-- Instances of C96_where_the_output_is (a link to a free name) and C96_output_at_its_path_partial (no link). -/
example : (∃ q i, LeadsTo dangling [97, 46, 98, 122, 50] q ∧ dangling.entry q = none ∧
      ((Command.compress 1 Strategy.single).oneLinks calmReads [97] dangling).1.entry q = some (Name.file i)) ∧
    ∃ i, ((Command.compress 1 Strategy.single).oneLinks calmReads [108] chain).1.entry [108, 46, 98, 122, 50] = some (Name.file i) := by
  obtain ⟨d, q, i, -, h2, h3, h4, -⟩ := C96_where_the_output_is (Command.compress 1 Strategy.single) calmReads [97] dangling
    _ _ Prod.mk.eta.symm (by decide +kernel)
  refine ⟨⟨q, i, h2, h3, h4⟩, ?_⟩
  have hn : (Command.compress 1 Strategy.single).outName [108] = [108, 46, 98, 122, 50] := by decide +kernel
  have h := C96_output_at_its_path_partial (Command.compress 1 Strategy.single) calmReads [108] chain _ _ Prod.mk.eta.symm
    (by decide +kernel) (by rw [hn]; intro t ht; exact absurd (ht.symm.trans (show chain.entry [108, 46, 98, 122, 50] = none by decide +kernel)) (by simp))
  rw [hn] at h
  exact h.2

/-- Instance of C96_without_links and C96_without_links_main: "banana" in an otherwise empty file system. -/
example : (Command.compress 1 Strategy.single).oneLinks calmReads [97] (withoutLinks oneBanana)
      = (withoutLinks ((Command.compress 1 Strategy.single).one calmReads [97] ⟨oneBanana, []⟩).1.fs, Outcome.ok) ∧
    (Command.compress 1 Strategy.single).mainLinks [([97], calmReads), ([97], calmReads)] (withoutLinks oneBanana)
      = (withoutLinks ((Command.compress 1 Strategy.single).main [([97], calmReads), ([97], calmReads)] ⟨oneBanana, []⟩).1.fs,
        Outcome.fileError) := by
  constructor
  · rw [C96_without_links (Command.compress 1 Strategy.single) calmReads [97] ⟨oneBanana, []⟩ calmReads_ok.1,
      show ((Command.compress 1 Strategy.single).one calmReads [97] ⟨oneBanana, []⟩).2 = Outcome.ok from by decide +kernel]
  · rw [C96_without_links_main (Command.compress 1 Strategy.single) [([97], calmReads), ([97], calmReads)] ⟨oneBanana, []⟩
        (by intro a ha; simp only [List.mem_cons, List.not_mem_nil, or_false, or_self] at ha; rw [ha]; exact calmReads_ok.1),
      show ((Command.compress 1 Strategy.single).main [([97], calmReads), ([97], calmReads)] ⟨oneBanana, []⟩).2 = Outcome.fileError
        from by decide +kernel]

end Ribzip2
