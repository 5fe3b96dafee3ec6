import Verif.Proofs.CliMain
import Verif.Props.Decode
import Verif.Props.RoundTrip
/- Properties C41 to C44 and C50 to C52: the command line program. -/
namespace Ribzip2
open Spec

/-! ### C41 -/

/-- **C41.** For every path that ends in a file name, `compress` adds `.bz2` to the path, and `decompress`
of the result writes to the path that was compressed. -/
theorem C41_names_round_trip (dir name : List UInt8) (h : FilePath dir name) :
    compressName (dir ++ name) = dir ++ name ++ [46, 98, 122, 50] ∧
    decompressName (compressName (dir ++ name)) = dir ++ name := by
  have h1 := compressName_file dir name h
  refine ⟨by rw [h1]; rfl, ?_⟩
  rw [h1, List.append_assoc]
  exact decompressName_file dir name bz2 (filePath_bz2 dir name h) h.ne (by decide)

/-- **C41**: two different paths never have the same compressed name. -/
theorem C41_names_injective (dir name dir' name' : List UInt8) (h : FilePath dir name) (h' : FilePath dir' name')
    (he : compressName (dir ++ name) = compressName (dir' ++ name')) : dir ++ name = dir' ++ name' := by
  rw [← (C41_names_round_trip dir name h).2, he, (C41_names_round_trip dir' name' h').2]

/-- `./x/..a.` -/
example : FilePath [46, 47, 120, 47] [46, 46, 97, 46] ∧
    compressName [46, 47, 120, 47, 46, 46, 97, 46] = [46, 47, 120, 47, 46, 46, 97, 46, 46, 98, 122, 50] :=
  ⟨⟨Or.inr ⟨[46, 47, 120], rfl⟩, by decide, by decide, by decide, by decide⟩, by decide⟩

/-- What `decompress` does to other names: the part from the last dot on is dropped whatever it is (so
`a.tar` is written to `a`), and a name without extension stays the same, so that decompression is
refused. -/
theorem C41_decompress_name (dir name : List UInt8) (h : FilePath dir name) :
    (∃ before after, name = before ++ dot :: after ∧ before ≠ [] ∧ dot ∉ after ∧
      decompressName (dir ++ name) = dir ++ before) ∨
    ((dot ∉ name ∨ ∃ after, name = dot :: after ∧ dot ∉ after) ∧ decompressName (dir ++ name) = dir ++ name) := by
  by_cases hd : dot ∈ name
  · obtain ⟨before, after, rfl, ha⟩ : ∃ before after, name = before ++ dot :: after ∧ dot ∉ after := by
      have key : ∀ l : List UInt8, dot ∈ l → ∃ a b, l = a ++ dot :: b ∧ dot ∉ b := by
        intro l
        induction l with
        | nil => simp
        | cons x l ih =>
          intro hx
          by_cases hl : dot ∈ l
          · obtain ⟨a, b, rfl, hb⟩ := ih hl
            exact ⟨x :: a, b, rfl, hb⟩
          · simp only [List.mem_cons, hl, or_false] at hx
            exact ⟨[], l, by rw [hx]; rfl, hl⟩
      exact key name hd
    by_cases hb : before = []
    · subst hb
      refine Or.inr ⟨Or.inr ⟨after, rfl, ha⟩, ?_⟩
      refine decompressName_none dir _ h ?_
      cases hs : splitExtension ([] ++ dot :: after) with
      | none => rfl
      | some x =>
        exfalso
        obtain ⟨b, a⟩ := x
        have hne : b ≠ [] := by
          unfold splitExtension at hs
          simp only at hs
          split at hs
          · simp at hs
          · rename_i hc
            simp only [Option.some.injEq, Prod.mk.injEq] at hs
            intro hbe
            exact hc (Or.inr (by rw [hs.1, hbe]))
        have := splitExtension_some _ b a hs
        cases b with
        | nil => exact hne rfl
        | cons y b =>
          simp only [List.nil_append, List.cons_append, List.cons.injEq] at this
          exact ha (by rw [this.2]; simp)
    · exact Or.inl ⟨before, after, rfl, hb, ha, decompressName_file dir before after h hb ha⟩
  · refine Or.inr ⟨Or.inl hd, decompressName_none dir name h ?_⟩
    unfold splitExtension
    simp only
    rw [if_pos]
    left
    simp only [List.all_eq_true, decide_eq_true_eq]
    rintro x hx rfl
    exact hd hx

/-- "d/a.tar.gz" becomes "d/a.tar"; ".x" stays ".x". -/
example : FilePath [100, 47] [97, 46, 116, 97, 114, 46, 103, 122] ∧
    decompressName [100, 47, 97, 46, 116, 97, 114, 46, 103, 122] = [100, 47, 97, 46, 116, 97, 114] ∧
    FilePath [] [46, 120] ∧ decompressName [46, 120] = [46, 120] :=
  ⟨⟨Or.inr ⟨[100], rfl⟩, by decide, by decide, by decide, by decide⟩, by decide,
    ⟨Or.inl rfl, by decide, by decide, by decide, by decide⟩, by decide⟩

/-! ### C42 -/

/-- The property C42 as a proposition: every file the program truncates or writes was created by it. -/
def NeverOverwrites : Prop := ∀ (c : Command) (args : List (Path × ArgEnv)) (w : World),
  WellFormed w.fs → (∀ a ∈ args, Civil a.2) →
    ∀ i ∈ (c.main args w).1.touched, i ∈ w.touched ∨ w.fs.next ≤ i

/-- Two files: `a` (empty) and `b` (content `[1, 2, 3]`). -/
def twoFiles : FileSys where
  dir := fun q => if q = [97] then some 0 else if q = [98] then some 1 else none
  data := fun i => if i = 1 then [1, 2, 3] else []
  next := 2

/-- Another process renames `b` to `a.bz2` after the check that `a.bz2` does not exist. -/
def renamer : ArgEnv where
  before := id
  openOk := true
  reader := Reader.ofBytes
  beforeCheck := id
  beforeCreate := fun fs => { fs with dir := fun q => if q = [97, 46, 98, 122, 50] then fs.dir [98]
    else if q = [98] then none else fs.dir q }
  createOk := true
  script := []

/-- **C42 is false.** `compress a`: between `exists()` and `File::create` another process renames a file
to the name of the output, and its content is lost. -/
theorem C42_refuted : ¬ NeverOverwrites := by
  intro h
  have hciv : Civil renamer := by
    refine ⟨fun fs h => ⟨h, Nat.le_refl _⟩, fun fs h => ⟨h, Nat.le_refl _⟩, fun fs h => ⟨?_, Nat.le_refl _⟩⟩
    intro p i hp
    simp only [renamer] at hp
    split at hp
    · exact h _ _ hp
    · split at hp
      · simp at hp
      · exact h _ _ hp
  have hwf : WellFormed twoFiles := by
    intro p i hp
    simp only [twoFiles] at hp ⊢
    split at hp
    · simp only [Option.some.injEq] at hp; omega
    · split at hp
      · simp only [Option.some.injEq] at hp; omega
      · simp at hp
  have := h (Command.compress 1 Strategy.single) [([97], renamer)] ⟨twoFiles, []⟩ hwf (by simpa using hciv) 1
    (by decide +kernel)
  revert this
  simp [twoFiles]

/-- The content is lost: the file with number 1 held `[1, 2, 3]`. -/
example : twoFiles.data 1 = [1, 2, 3] ∧
    ((Command.compress 1 Strategy.single).main [([97], renamer)] ⟨twoFiles, []⟩).1.fs.data 1
      = [0x42, 0x5a, 0x68, 0x39, 0x17, 0x72, 0x45, 0x38, 0x50, 0x90, 0, 0, 0, 0] := by
  decide +kernel

/-- **C42**, the part that holds: if no other process puts a file at the output path between the check and
the creation, then whatever other processes do otherwise, the program truncates and writes only files
it has created itself. For both commands and all lists of arguments. Missing: the race
(`C42_refuted`). -/
theorem C42_never_overwrites_partial (c : Command) (args : List (Path × ArgEnv)) (w : World)
    (hw : WellFormed w.fs) (hciv : ∀ a ∈ args, Civil a.2)
    (hrace : ∀ a ∈ args, ∀ fs : FileSys, fs.dir (c.outName a.1) = none →
      (a.2.beforeCreate fs).dir (c.outName a.1) = none) :
    ∀ i ∈ (c.main args w).1.touched, i ∈ w.touched ∨ w.fs.next ≤ i := by
  have one : ∀ (p : Path) (env : ArgEnv) (w : World), WellFormed w.fs → Civil env →
      (∀ fs : FileSys, fs.dir (c.outName p) = none → (env.beforeCreate fs).dir (c.outName p) = none) →
      WellFormed (c.one env p w).1.fs ∧ w.fs.next ≤ (c.one env p w).1.fs.next ∧
      ∀ i ∈ (c.one env p w).1.touched, i ∈ w.touched ∨ w.fs.next ≤ i := by
    intro p env w hw hc hr
    obtain ⟨c1, c2, c3⟩ := hc
    have s1 := c1 w.fs hw
    have s2 := c2 _ s1.1
    have s3 := c3 _ s2.1
    rcases one_cases c env p w hr with ⟨-, h2, h3⟩ | ⟨i, fs, -, -, -, h4, h5, h6⟩
    · refine ⟨?_, ?_, fun i hi => Or.inl (by rw [← h2]; exact hi)⟩
      · rcases h3 with h3 | h3 | h3 <;> rw [h3]
        · exact s1.1
        · exact s2.1
        · exact s3.1
      · rcases h3 with h3 | h3 | h3 <;> rw [h3] <;> omega
    · rw [← h5] at s3
      rw [h6]
      refine ⟨?_, by simp only; omega, ?_⟩
      · intro q j hq
        simp only at hq ⊢
        split at hq
        · simp only [Option.some.injEq] at hq; omega
        · have := s3.1 q j hq; omega
      · intro j hj
        simp only [List.mem_cons] at hj
        rcases hj with rfl | rfl | hj
        · right; omega
        · right; omega
        · exact Or.inl hj
  induction args generalizing w with
  | nil => intro i hi; exact Or.inl hi
  | cons a args ih =>
    obtain ⟨p, env⟩ := a
    obtain ⟨o1, o2, o3⟩ := one p env w hw (hciv (p, env) (by simp)) (hrace (p, env) (by simp))
    simp only [Command.main]
    rcases hx : c.one env p w with ⟨w1, o⟩
    rw [hx] at o1 o2 o3
    cases o with
    | ok =>
      intro i hi
      rcases ih w1 o1 (fun a ha => hciv a (by simp [ha])) (fun a ha => hrace a (by simp [ha])) i hi with h | h
      · exact o3 i h
      · right; simp only at o2; omega
    | fileError => exact o3
    | panic => exact o3
    | div => exact o3

/-- Another process deletes `b` while `a` is compressed: the hypotheses are met. -/
example : WellFormed twoFiles ∧
    Civil { renamer with beforeCreate := fun fs => { fs with dir := fun q => if q = [98] then none else fs.dir q } } ∧
    ∀ fs : FileSys, fs.dir ((Command.compress 1 Strategy.single).outName [97]) = none →
      ({ fs with dir := fun q => if q = [98] then none else fs.dir q } : FileSys).dir
        ((Command.compress 1 Strategy.single).outName [97]) = none := by
  refine ⟨?_, ⟨fun fs h => ⟨h, Nat.le_refl _⟩, fun fs h => ⟨h, Nat.le_refl _⟩, fun fs h => ⟨?_, Nat.le_refl _⟩⟩, ?_⟩
  · intro p i hp
    simp only [twoFiles] at hp ⊢
    split at hp
    · simp only [Option.some.injEq] at hp; omega
    · split at hp
      · simp only [Option.some.injEq] at hp; omega
      · simp at hp
  · intro p i hp
    simp only at hp
    split at hp
    · simp at hp
    · exact h _ _ hp
  · intro fs h
    simp only
    split
    · rfl
    · exact h

/-- **C42**, exact extent of the damage: in the midst of any activity of other processes, one argument that is not refused
changes, compared with the moment its output is created, at most the file that the output path names at that moment
(none, or the one another process has just put there) and no other file and no other path; that file is
replaced by the result, a new file is made otherwise. An argument that is refused changes nothing itself. -/
theorem C42_one_file_at_most (c : Command) (env : ArgEnv) (p : Path) (w : World) :
    ((c.one env p w).2 = Outcome.fileError ∧
      ((c.one env p w).1.fs = env.before w.fs ∨ (c.one env p w).1.fs = env.beforeCheck (env.before w.fs) ∨
        (c.one env p w).1.fs = env.beforeCreate (env.beforeCheck (env.before w.fs)))) ∨
    ∃ (s : FileSys) (i j : Nat), s = env.beforeCreate (env.beforeCheck (env.before w.fs)) ∧
      (env.before w.fs).dir p = some i ∧ (env.beforeCheck (env.before w.fs)).dir (c.outName p) = none ∧
      (s.dir (c.outName p) = some j ∨ s.dir (c.outName p) = none ∧ j = s.next) ∧
      (c.one env p w).1.fs.dir (c.outName p) = some j ∧
      (c.one env p w).1.fs.data j = (c.run (env.reader ((env.before w.fs).data i)) env.script).1 ∧
      (∀ q, q ≠ c.outName p → (c.one env p w).1.fs.dir q = s.dir q) ∧
      (∀ k, k ≠ j → (c.one env p w).1.fs.data k = s.data k) := by
  cases hp : (env.before w.fs).dir p with
  | none =>
    left
    simp [Command.one, openBoth, hp]
  | some i =>
    cases ho : env.openOk with
    | false => left; simp [Command.one, openBoth, hp, ho]
    | true =>
      cases hc : (env.beforeCheck (env.before w.fs)).dir (c.outName p) with
      | some k => left; simp [Command.one, openBoth, hp, ho, hc]
      | none =>
        cases hk : env.createOk with
        | false => left; simp [Command.one, openBoth, hp, ho, hc, hk]
        | true =>
          right
          cases hs : (env.beforeCreate (env.beforeCheck (env.before w.fs))).dir (c.outName p) with
          | some j =>
            refine ⟨_, i, j, rfl, rfl, rfl, Or.inl hs, ?_⟩
            simp only [Command.one, openBoth, hp, ho, hc, hk, FileSys.create, hs, FileSys.put, if_true]
            exact ⟨trivial, trivial, fun q _ => trivial, fun k hkj => by simp [hkj]⟩
          | none =>
            refine ⟨_, i, _, rfl, rfl, rfl, Or.inr ⟨hs, rfl⟩, ?_⟩
            simp only [Command.one, openBoth, hp, ho, hc, hk, FileSys.create, hs, FileSys.put, if_true]
            exact ⟨trivial, trivial, fun q hq => by simp [hq], fun k hkj => by simp [hkj]⟩

/-- The race of `C42_refuted`: file 1 is replaced, file 0 keeps its content. -/
example : ((Command.compress 1 Strategy.single).one renamer [97] ⟨twoFiles, []⟩).2 = Outcome.ok ∧
    (renamer.beforeCreate twoFiles).dir ((Command.compress 1 Strategy.single).outName [97]) = some 1 ∧
    ((Command.compress 1 Strategy.single).one renamer [97] ⟨twoFiles, []⟩).1.fs.data 1 ≠ [1, 2, 3] := by
  decide +kernel

/-- **C42**, when no other process is active: every file that exists keeps its name and its content,
whatever the outcome, for both commands, all lists of arguments, read and write errors. -/
theorem C42_existing_files_unchanged (c : Command) (args : List (Path × ArgEnv)) (w : World)
    (hw : WellFormed w.fs) (halone : ∀ a ∈ args, Alone a.2) (q : Path) (i : Nat)
    (hq : w.fs.dir q = some i) :
    (c.main args w).1.fs.dir q = some i ∧ (c.main args w).1.fs.data i = w.fs.data i := by
  have one : ∀ (p : Path) (env : ArgEnv) (w : World), WellFormed w.fs → Alone env →
      WellFormed (c.one env p w).1.fs ∧ ∀ q i, w.fs.dir q = some i →
        (c.one env p w).1.fs.dir q = some i ∧ (c.one env p w).1.fs.data i = w.fs.data i := by
    intro p env w hw ha
    rcases one_cases c env p w (fun fs h => by rw [(ha fs).2.2]; exact h) with ⟨-, h2, h3⟩ | ⟨i, fs, -, -, -, h4, h5, h6⟩
    · have : (c.one env p w).1.fs = w.fs := by
        rcases h3 with h3 | h3 | h3 <;> rw [h3] <;> simp [ha _]
      rw [this]
      exact ⟨hw, fun q i h => ⟨h, rfl⟩⟩
    · have hfs : fs = w.fs := by rw [h5]; simp [ha _]
      subst hfs
      rw [h6]
      rw [(ha _).1, (ha _).2.1] at h4
      refine ⟨?_, ?_⟩
      · intro q j hq
        simp only at hq ⊢
        split at hq
        · simp only [Option.some.injEq] at hq; omega
        · have := hw q j hq; omega
      · intro q j hq
        have hlt := hw q j hq
        simp only
        refine ⟨?_, ?_⟩
        · rw [if_neg]
          · exact hq
          · rintro rfl
            rw [h4] at hq
            simp at hq
        · rw [if_neg (by omega)]
  induction args generalizing w with
  | nil => exact ⟨hq, rfl⟩
  | cons a args ih =>
    obtain ⟨p, env⟩ := a
    obtain ⟨o1, o2⟩ := one p env w hw (halone (p, env) (by simp))
    obtain ⟨o3, o4⟩ := o2 q i hq
    simp only [Command.main]
    rcases hx : c.one env p w with ⟨w1, o⟩
    rw [hx] at o1 o3 o4
    cases o with
    | ok =>
      have := ih w1 o1 (fun a ha => halone a (by simp [ha])) o3
      exact ⟨this.1, by rw [this.2]; exact o4⟩
    | fileError => exact ⟨o3, o4⟩
    | panic => exact ⟨o3, o4⟩
    | div => exact ⟨o3, o4⟩

/-- A process that runs alone, with the reads and writes succeeding. -/
def calm : ArgEnv where
  before := id
  openOk := true
  reader := Reader.ofBytes
  beforeCheck := id
  beforeCreate := id
  createOk := true
  script := []

example : Alone calm ∧ ((Command.compress 1 Strategy.single).main [([97], calm), ([98], calm)]
    ⟨twoFiles, []⟩).2 = Outcome.ok := by
  refine ⟨fun _ => ⟨rfl, rfl, rfl⟩, by decide +kernel⟩

/-! ### C43 -/

/-- The property C43 as a proposition: if `compress` of a file ends with status 0, the output file holds
what the library writes to a reliable writer. -/
def SuccessMeansComplete : Prop := ∀ (threads : Nat) (strategy : Strategy) (env : ArgEnv) (p : Path) (w w' : World),
  Alone env → (Command.compress threads strategy).one env p w = (w', Outcome.ok) →
    ∃ i bytes, w.fs.dir p = some i ∧
      encodeStream euclid (env.reader (w.fs.data i)) Writer.empty threads strategy = (⟨bytes, []⟩, Res.ok ()) ∧
      contentAt w'.fs (compressName p) = some bytes

/-- What one successful run of `compress` does when nobody else is active. -/
theorem compress_one (threads : Nat) (strategy : Strategy) (env : ArgEnv) (p : Path) (w w' : World) (o : Outcome)
    (ho : o ≠ Outcome.fileError) (ha : Alone env)
    (h : (Command.compress threads strategy).one env p w = (w', o)) :
    ∃ i, w.fs.dir p = some i ∧ w.fs.dir (compressName p) = none ∧
      contentAt w'.fs (compressName p)
        = some (compressData euclid (env.reader (w.fs.data i)) threads strategy env.script).1 ∧
      (compressData euclid (env.reader (w.fs.data i)) threads strategy env.script).2 = o := by
  rcases one_cases (Command.compress threads strategy) env p w (fun fs h => by rw [(ha fs).2.2]; exact h) with
    ⟨h1, -, -⟩ | ⟨i, fs, h1, -, -, h2, h5, h6⟩
  · rw [h] at h1
    exact absurd h1 ho
  · rw [(ha _).1] at h1 h2 h6
    rw [(ha _).2.1] at h2
    rw [h] at h6
    simp only [Prod.mk.injEq] at h6
    refine ⟨i, h1, h2, ?_, ?_⟩
    · rw [h6.1]
      simp [contentAt, Command.outName, Command.run]
    · rw [h6.2]; rfl

/-- **C43 is false**, for every input whose compressed stream fits into the buffer (8192 bytes): if the
only write to the file fails, `compress` ends with status 0 and the output file is empty. -/
theorem C43_refuted_every_small_file (threads : Nat) (strategy : Strategy) (p : Path) (w : World) (i : Nat)
    (bytes : List UInt8) (rest : List FEvent) (hp : w.fs.dir p = some i) (hout : w.fs.dir (compressName p) = none)
    (hb : encodeStream euclid (Reader.ofBytes (w.fs.data i)) Writer.empty threads strategy = (⟨bytes, []⟩, Res.ok ()))
    (hlen : bytes.length ≤ 8192) :
    ∃ w', (Command.compress threads strategy).one { calm with script := FEvent.fail :: rest } p w = (w', Outcome.ok) ∧
      contentAt w'.fs (compressName p) = some [] := by
  have hd := compressData_small_fail euclid (Reader.ofBytes (w.fs.data i)) threads strategy rest bytes hlen hb
  refine ⟨⟨(w.fs.create (compressName p)).1.put w.fs.next [], w.fs.next :: w.fs.next :: w.touched⟩, ?_, ?_⟩
  · simp [Command.one, openBoth, calm, hp, Command.outName, hout, FileSys.create, Command.run, hd]
    rfl
  · simp [contentAt, FileSys.create, FileSys.put, hout]

theorem C43_refuted : ¬ SuccessMeansComplete := by
  intro h
  have hb : encodeStream euclid (Reader.ofBytes (twoFiles.data 0)) Writer.empty 1 Strategy.single
      = (⟨[0x42, 0x5a, 0x68, 0x39, 0x17, 0x72, 0x45, 0x38, 0x50, 0x90, 0, 0, 0, 0], []⟩, Res.ok ()) := rfl
  obtain ⟨w', h1, h2⟩ := C43_refuted_every_small_file 1 Strategy.single [97] ⟨twoFiles, []⟩ 0 _ [] rfl
    (by decide) hb (by decide)
  obtain ⟨i, bytes, k1, k2, k3⟩ := h 1 Strategy.single _ [97] ⟨twoFiles, []⟩ w' (fun _ => ⟨rfl, rfl, rfl⟩) h1
  have hi : i = 0 := by
    simp only [twoFiles, if_true, Option.some.injEq] at k1
    exact k1.symm
  subst hi
  rw [h2] at k3
  simp only [Option.some.injEq] at k3
  subst k3
  have : encodeStream euclid (Reader.ofBytes (twoFiles.data 0)) Writer.empty 1 Strategy.single
      = (⟨[], []⟩, Res.ok ()) := k2
  rw [hb] at this
  simp at this

/-- **C43**, the part that holds: if `compress` ends with status 0 and no write to the file failed or took
nothing (`Interrupted` and short writes are allowed), the output file holds the whole stream. Missing:
write errors while the buffer is flushed for the last time (`C43_refuted`). -/
theorem C43_success_means_complete_partial (threads : Nat) (strategy : Strategy) (env : ArgEnv) (p : Path)
    (w w' : World) (ha : Alone env) (hs : NoFileError env.script)
    (h : (Command.compress threads strategy).one env p w = (w', Outcome.ok)) :
    ∃ i bytes, w.fs.dir p = some i ∧
      encodeStream euclid (env.reader (w.fs.data i)) Writer.empty threads strategy = (⟨bytes, []⟩, Res.ok ()) ∧
      contentAt w'.fs (compressName p) = some bytes := by
  obtain ⟨i, h1, -, h3, h4⟩ := compress_one threads strategy env p w w' _ (by simp) ha h
  obtain ⟨bytes, res, k1, k2, k3⟩ := compressData_noError euclid (env.reader (w.fs.data i)) threads strategy env.script hs
  rw [h4] at k2
  cases res with
  | ok u => exact ⟨i, bytes, h1, k1, by rw [h3, k3 (by simp)]⟩
  | _ => simp [outcomeOf] at k2

/-- **C43**, for every behaviour of the file: if `compress` ends with status 0, the output file holds the
stream except for at most the last 8192 bytes; and if it panics or never ends, what the file holds is still a
prefix of the stream. -/
theorem C43_output_is_a_prefix (threads : Nat) (strategy : Strategy) (env : ArgEnv) (p : Path) (w w' : World)
    (o : Outcome) (ho : o ≠ Outcome.fileError) (ha : Alone env)
    (h : (Command.compress threads strategy).one env p w = (w', o)) :
    ∃ i bytes res file, w.fs.dir p = some i ∧
      encodeStream euclid (env.reader (w.fs.data i)) Writer.empty threads strategy = (⟨bytes, []⟩, res) ∧
      contentAt w'.fs (compressName p) = some file ∧ file <+: bytes ∧
      (o = Outcome.ok → res = Res.ok () ∧ bytes.length ≤ file.length + 8192) := by
  obtain ⟨i, h1, -, h3, h4⟩ := compress_one threads strategy env p w w' _ ho ha h
  obtain ⟨bytes, res, k1, k2, k3⟩ := compressData_prefix euclid (env.reader (w.fs.data i)) threads strategy env.script
  refine ⟨i, bytes, res, _, h1, k1, h3, k2, fun hk => ?_⟩
  obtain ⟨r1, lost, r2, r3⟩ := k3 (by rw [h4, hk])
  refine ⟨r1, ?_⟩
  have := congrArg List.length r2
  rw [List.length_append] at this
  unfold bufCapacity at r3
  omega

/-- Short writes and an interruption: 14 bytes in pieces of 5. -/
example : NoFileError [FEvent.accept 5, FEvent.intr, FEvent.accept 5] ∧
    ((Command.compress 1 Strategy.single).one { calm with script := [FEvent.accept 5, FEvent.intr, FEvent.accept 5] }
      [97] ⟨twoFiles, []⟩).2 = Outcome.ok := by
  refine ⟨by intro e he; simp at he; rcases he with rfl | rfl | rfl <;> simp, by decide +kernel⟩

/-! ### C44 -/

/-- **C44.** The arguments are processed in order, each in the state the earlier ones left, and nothing is
done for the arguments behind the first one that fails: outcome and effects are the same as if they had
not been given. -/
theorem C44_stops_at_first_error (c : Command) (pre post : List (Path × ArgEnv)) (a : Path × ArgEnv) (w : World) :
    ((c.main pre w).2 = Outcome.ok → c.main (pre ++ [a]) w = c.one a.2 a.1 (c.main pre w).1) ∧
    ((c.main (pre ++ [a]) w).2 ≠ Outcome.ok → c.main (pre ++ a :: post) w = c.main (pre ++ [a]) w) := by
  refine ⟨fun h => ?_, fun h => ?_⟩
  · rcases hm : c.main pre w with ⟨w1, o⟩
    rw [hm] at h
    simp only at h
    subst h
    rw [main_append c pre [a] w w1 _ hm, if_pos rfl, main_single]
  · rcases hm : c.main (pre ++ [a]) w with ⟨w1, o⟩
    rw [hm] at h
    simp only at h
    have := main_append c (pre ++ [a]) post w w1 o hm
    rw [List.append_assoc, List.singleton_append] at this
    rw [this, if_neg h]

/-- **C44**: status 0 exactly if every argument succeeded. -/
theorem C44_ok_iff_all_ok (c : Command) (args : List (Path × ArgEnv)) (w : World) :
    (c.main args w).2 = Outcome.ok ↔
      ∀ pre a post, args = pre ++ a :: post → (c.main pre w).2 = Outcome.ok ∧
        (c.one a.2 a.1 (c.main pre w).1).2 = Outcome.ok := by
  induction args generalizing w with
  | nil => simp [Command.main]
  | cons x args ih =>
    obtain ⟨p, env⟩ := x
    rcases hx : c.one env p w with ⟨w1, o⟩
    have e1 : ∀ l, c.main ((p, env) :: l) w = if o = Outcome.ok then c.main l w1 else (w1, o) := by
      intro l
      simp only [Command.main, hx]
      cases o <;> simp
    constructor
    · intro h pre a post heq
      rw [e1] at h
      by_cases ho : o = Outcome.ok
      · subst ho
        simp only [if_true] at h
        cases pre with
        | nil =>
          simp only [List.nil_append, List.cons.injEq] at heq
          obtain ⟨rfl, -⟩ := heq
          exact ⟨rfl, by simp only [Command.main]; rw [hx]⟩
        | cons y pre =>
          simp only [List.cons_append, List.cons.injEq] at heq
          obtain ⟨rfl, heq⟩ := heq
          rw [e1, if_pos rfl]
          exact (ih w1).1 h pre a post heq
      · rw [if_neg ho] at h
        exact absurd h ho
    · intro h
      have h0 := (h [] (p, env) args rfl).2
      simp only [Command.main] at h0
      rw [hx] at h0
      simp only at h0
      subst h0
      rw [e1, if_pos rfl]
      refine (ih w1).2 fun pre a post heq => ?_
      have := h ((p, env) :: pre) a post (by rw [heq]; rfl)
      rw [e1, if_pos rfl] at this
      exact this

theorem run_ne_fileError (c : Command) (r : Reader) (script : List FEvent) :
    (c.run r script).2 ≠ Outcome.fileError := by
  cases c with
  | compress t st =>
    simp only [Command.run, compressData]
    split <;> simp
  | decompress =>
    simp only [Command.run, decompressData]
    split <;> simp
  | decompressRelease =>
    simp only [Command.run, Release.decompressData]
    split <;> simp

/-- **C44**: when no other process is active, the only path that changes because of one argument is its
output, and an argument that is refused (the input cannot be opened, the output exists or cannot be
created) changes nothing at all. -/
theorem C44_only_the_output_changes (c : Command) (env : ArgEnv) (p : Path) (w : World)
    (hw : WellFormed w.fs) (ha : Alone env) :
    (∀ q, q ≠ c.outName p → contentAt (c.one env p w).1.fs q = contentAt w.fs q) ∧
    ((c.one env p w).2 = Outcome.fileError → (c.one env p w).1.fs = w.fs) := by
  rcases one_cases c env p w (fun fs h => by rw [(ha fs).2.2]; exact h) with ⟨h1, h2, h3⟩ | ⟨i, fs, -, -, -, h4, h5, h6⟩
  · have : (c.one env p w).1.fs = w.fs := by
      rcases h3 with h3 | h3 | h3 <;> rw [h3] <;> simp [ha _]
    rw [this]
    exact ⟨fun q _ => rfl, fun _ => rfl⟩
  · have hfs : fs = w.fs := by rw [h5]; simp [ha _]
    subst hfs
    rw [h6]
    refine ⟨fun q hq => ?_, fun hc => absurd hc (run_ne_fileError _ _ _)⟩
    simp only [contentAt, if_neg hq]
    cases hd : w.fs.dir q with
    | none => rfl
    | some j =>
      have := hw q j hd
      simp only [Option.map_some, Option.some.injEq]
      rw [if_neg (by omega)]

/-- The second of three arguments does not exist: the third is not compressed. -/
example : ((Command.compress 1 Strategy.single).main [([97], calm), ([99], calm), ([98], calm)] ⟨twoFiles, []⟩).2
      = Outcome.fileError ∧
    contentAt ((Command.compress 1 Strategy.single).main [([97], calm), ([99], calm), ([98], calm)]
      ⟨twoFiles, []⟩).1.fs [98, 46, 98, 122, 50] = none := by
  decide +kernel

/-! ### C50 -/

/-- What one run of `decompress` that is not refused does when nobody else is active. -/
theorem decompress_one (env : ArgEnv) (p : Path) (w w' : World) (o : Outcome)
    (ho : o ≠ Outcome.fileError) (ha : Alone env) (h : Command.decompress.one env p w = (w', o)) :
    ∃ i, w.fs.dir p = some i ∧ w.fs.dir (decompressName p) = none ∧
      contentAt w'.fs (decompressName p) = some (decompressData (env.reader (w.fs.data i)) env.script).1 ∧
      (decompressData (env.reader (w.fs.data i)) env.script).2 = o := by
  rcases one_cases Command.decompress env p w (fun fs h => by rw [(ha fs).2.2]; exact h) with
    ⟨h1, -, -⟩ | ⟨i, fs, h1, -, -, h2, h5, h6⟩
  · rw [h] at h1
    exact absurd h1 ho
  · rw [(ha _).1] at h1 h2 h6
    rw [(ha _).2.1] at h2
    rw [h] at h6
    simp only [Prod.mk.injEq] at h6
    refine ⟨i, h1, h2, ?_, ?_⟩
    · rw [h6.1]
      simp [contentAt, Command.outName, Command.run]
    · rw [h6.2]; rfl

/-- A file `a.bz2` with the stream of `ab`. -/
def bz2File : FileSys where
  dir := fun q => if q = [97, 46, 98, 122, 50] then some 0 else none
  data := fun i => if i = 0 then sampleAB else []
  next := 1

/-- **C50 is false.** `decompress` of the stream of `ab`, when the write takes only one byte (say, because
the disk is full): status 0, and the output file holds `a`. -/
theorem C50_refuted : ∃ (env : ArgEnv) (w' : World), Alone env ∧ (∀ k, FEvent.accept k ∈ env.script → 1 ≤ k) ∧
    Command.decompress.one env [97, 46, 98, 122, 50] ⟨bz2File, []⟩ = (w', Outcome.ok) ∧
    contentAt w'.fs [97] = some [97] ∧ decodeBytes (bz2File.data 0) = Res.ok [97, 98] := by
  refine ⟨{ calm with script := [FEvent.accept 1] },
    (Command.decompress.one { calm with script := [FEvent.accept 1] } [97, 46, 98, 122, 50] ⟨bz2File, []⟩).1,
    fun _ => ⟨rfl, rfl, rfl⟩, by simp, ?_, ?_, by decide +kernel⟩
  · exact Prod.ext rfl (by decide +kernel)
  · decide +kernel

/-- **C50**, the part that holds: if `decompress` ends with status 0 and every write to the file took all it
was offered or failed, the output file holds everything the library decodes, and the library returned
Ok. Missing: short writes (`C50_refuted`). -/
theorem C50_success_means_complete_partial (env : ArgEnv) (p : Path) (w w' : World) (ha : Alone env)
    (hfull : ∀ i k, w.fs.dir p = some i → FEvent.accept k ∈ env.script →
      (decodeStream (env.reader (w.fs.data i)) Writer.empty).1.out.length ≤ k)
    (h : Command.decompress.one env p w = (w', Outcome.ok)) :
    ∃ i out, w.fs.dir p = some i ∧
      decodeStream (env.reader (w.fs.data i)) Writer.empty = (⟨out, []⟩, Res.ok ()) ∧
      contentAt w'.fs (decompressName p) = some out := by
  obtain ⟨i, h1, -, h3, h4⟩ := decompress_one env p w w' _ (by simp) ha h
  have hw : ∀ k, WEvent.accept k ∈ env.script.map FEvent.toWEvent →
      (decodeStream (env.reader (w.fs.data i)) Writer.empty).1.out.length ≤ k := by
    intro k hk
    simp only [List.mem_map] at hk
    obtain ⟨e, he, hek⟩ := hk
    cases e with
    | accept k' =>
      simp only [FEvent.toWEvent, WEvent.accept.injEq] at hek
      subst hek
      exact hfull i _ h1 he
    | intr => simp [FEvent.toWEvent] at hek
    | fail => simp [FEvent.toWEvent] at hek
  have hok : (decodeStream (env.reader (w.fs.data i)) ⟨[], env.script.map FEvent.toWEvent⟩).2 = Res.ok () ∧
      (decompressData (env.reader (w.fs.data i)) env.script).1
        = (decodeStream (env.reader (w.fs.data i)) ⟨[], env.script.map FEvent.toWEvent⟩).1.out := by
    unfold decompressData at h4 ⊢
    generalize decodeStream (env.reader (w.fs.data i)) ⟨[], env.script.map FEvent.toWEvent⟩ = x at h4 ⊢
    obtain ⟨wr, r⟩ := x
    cases r <;> simp at h4 ⊢
  obtain ⟨c1, c2⟩ := C36_output_complete_partial _ ⟨[], env.script.map FEvent.toWEvent⟩ hw hok.1
  refine ⟨i, (decodeStream (env.reader (w.fs.data i)) Writer.empty).1.out, h1, ?_, ?_⟩
  · have := decodeStream_reliable (env.reader (w.fs.data i)) []
    simp only [Writer.empty] at *
    rw [this] at c2 ⊢
    simp only at c2
    rw [c2]
  · rw [h3, hok.2, c1, List.nil_append]

/-- A short file whose first `write` takes more than the two bytes of the output. -/
example : Alone { calm with script := [FEvent.accept 5] } ∧
    (decodeStream (Reader.ofBytes (bz2File.data 0)) Writer.empty).1.out.length ≤ 5 ∧
    (Command.decompress.one { calm with script := [FEvent.accept 5] } [97, 46, 98, 122, 50] ⟨bz2File, []⟩).2 = Outcome.ok :=
  ⟨fun _ => ⟨rfl, rfl, rfl⟩, by decide +kernel, by decide +kernel⟩

/-! ### C51 -/

theorem delivered_steady (es : List REvent) (h : Steady es) : delivered es = scriptBytes es := by
  induction es with
  | nil => rfl
  | cons e es ih =>
    have ih := ih fun x hx => h x (by simp [hx])
    rcases h e (by simp) with rfl | ⟨bs, hbs, rfl⟩
    · simp [delivered, scriptBytes, ih]
    · cases bs with
      | nil => exact absurd rfl hbs
      | cons b bs => simp [delivered, scriptBytes, ih]

/-- Deleting a file. -/
def remove (p : Path) (w : World) : World :=
  { w with fs := { w.fs with dir := fun q => if q = p then none else w.fs.dir q } }

/-- `compress` of a file, deletion of the file, `decompress` of the result, in terms of what the first command
writes. -/
theorem compress_decompress_of (dir name : List UInt8) (hp : FilePath dir name) (threads : Nat)
    (strategy : Strategy) (w : World) (i : Nat) (bytes : List UInt8) (e1 e2 : ArgEnv)
    (hi : w.fs.dir (dir ++ name) = some i)
    (hout : w.fs.dir (dir ++ name ++ [46, 98, 122, 50]) = none)
    (ha1 : Alone e1) (ha2 : Alone e2) (hr2 : ReadsAll e2)
    (ho1 : e1.openOk = true ∧ e1.createOk = true) (ho2 : e2.openOk = true ∧ e2.createOk = true)
    (hs2 : e2.script = [])
    (r1 : compressData euclid (e1.reader (w.fs.data i)) threads strategy e1.script = (bytes, Outcome.ok)) :
    ∃ w1, (Command.compress threads strategy).main [(dir ++ name, e1)] w = (w1, Outcome.ok) ∧
      ((decodeBytes bytes = Res.err ∨ decodeBytes bytes = Res.panic) →
        (Command.decompress.main [(dir ++ name ++ [46, 98, 122, 50], e2)] (remove (dir ++ name) w1)).2 = Outcome.panic) ∧
      (∀ d, decodeBytes bytes = Res.ok d →
        ∃ w2, Command.decompress.main [(dir ++ name ++ [46, 98, 122, 50], e2)] (remove (dir ++ name) w1) = (w2, Outcome.ok) ∧
          contentAt w2.fs (dir ++ name) = some d) := by
  obtain ⟨hn1, hn2⟩ := C41_names_round_trip dir name hp
  simp only [main_single]
  have hne : dir ++ name ++ [46, 98, 122, 50] ≠ dir ++ name := by
    intro h
    have := congrArg List.length h
    simp at this
  generalize hq : dir ++ name ++ [46, 98, 122, 50] = q at *
  generalize dir ++ name = p at *
  have c1 : (Command.compress threads strategy).one e1 p w
      = (⟨⟨fun x => if x = q then some w.fs.next else w.fs.dir x,
          fun j => if j = w.fs.next then bytes else w.fs.data j, w.fs.next + 1⟩,
          w.fs.next :: w.fs.next :: w.touched⟩, Outcome.ok) := by
    simp only [Command.one, openBoth, (ha1 _).1, (ha1 _).2.1, (ha1 _).2.2, hi, ho1.1, ho1.2, Command.outName,
      hn1, hout, if_true, create_fresh _ _ hout, Command.run, r1, FileSys.put, Prod.mk.injEq, World.mk.injEq,
      FileSys.mk.injEq, true_and, and_true]
    funext j
    split <;> rfl
  refine ⟨_, c1, ?_⟩
  -- decompress
  obtain ⟨es, f1, f2, f3⟩ := hr2 bytes
  have r2 : decodeStream (e2.reader bytes) ⟨[], []⟩ = decodeStream (Reader.ofBytes bytes) Writer.empty := by
    rw [f1, Writer.empty, decodeStream_reliable, decodeStream_reliable, delivered_steady _ f2, f3]
    simp [Reader.ofBytes]
  have c2 : Command.decompress.one e2 q (remove p ⟨⟨fun x => if x = q then some w.fs.next else w.fs.dir x,
          fun j => if j = w.fs.next then bytes else w.fs.data j, w.fs.next + 1⟩, w.fs.next :: w.fs.next :: w.touched⟩)
      = (⟨⟨fun x => if x = p then some (w.fs.next + 1) else if x = p then none
            else if x = q then some w.fs.next else w.fs.dir x,
          fun j => if j = w.fs.next + 1 then (decompressData (e2.reader bytes) e2.script).1
            else if j = w.fs.next then bytes else w.fs.data j, w.fs.next + 1 + 1⟩,
          (w.fs.next + 1) :: (w.fs.next + 1) :: w.fs.next :: w.fs.next :: w.touched⟩,
        (decompressData (e2.reader bytes) e2.script).2) := by
    have hpn : decompressName q = p := by rw [hn1] at hn2; exact hn2
    have hcf : ∀ fs : FileSys, fs.dir p = none → fs.create p = _ := fun fs h => create_fresh fs p h
    simp only [Command.one, openBoth, (ha2 _).1, (ha2 _).2.1, (ha2 _).2.2, remove, if_neg hne, if_true, ho2.1, ho2.2,
      Command.outName, hpn]
    rw [hcf _ (by simp)]
    simp only [Command.run, FileSys.put, Prod.mk.injEq, World.mk.injEq,
      FileSys.mk.injEq, true_and, and_true]
    funext j
    split <;> rfl
  rw [c2, hs2]
  unfold decompressData decodeBytes
  simp only [List.map_nil, r2]
  rcases decodeStream (Reader.ofBytes bytes) Writer.empty with ⟨wr, r⟩
  cases r with
  | ok u => simp [contentAt]
  | err => simp
  | panic => simp
  | div => simp

/-- `compress` of a file, deletion of the file, `decompress` of the result, in terms of the library. -/
theorem compress_decompress (dir name : List UInt8) (hp : FilePath dir name) (threads : Nat) (ht : 1 ≤ threads)
    (strategy : Strategy) (w : World) (i : Nat) (bytes : List UInt8) (e1 e2 : ArgEnv)
    (hi : w.fs.dir (dir ++ name) = some i)
    (hout : w.fs.dir (dir ++ name ++ [46, 98, 122, 50]) = none)
    (ha1 : Alone e1) (ha2 : Alone e2) (hr1 : ReadsAll e1) (hr2 : ReadsAll e2)
    (ho1 : e1.openOk = true ∧ e1.createOk = true) (ho2 : e2.openOk = true ∧ e2.createOk = true)
    (hs1 : NoFileError e1.script) (hs2 : e2.script = [])
    (hb : encodeBytes euclid (w.fs.data i) threads strategy = Res.ok bytes) :
    ∃ w1, (Command.compress threads strategy).main [(dir ++ name, e1)] w = (w1, Outcome.ok) ∧
      ((decodeBytes bytes = Res.err ∨ decodeBytes bytes = Res.panic) →
        (Command.decompress.main [(dir ++ name ++ [46, 98, 122, 50], e2)] (remove (dir ++ name) w1)).2 = Outcome.panic) ∧
      (∀ d, decodeBytes bytes = Res.ok d →
        ∃ w2, Command.decompress.main [(dir ++ name ++ [46, 98, 122, 50], e2)] (remove (dir ++ name) w1) = (w2, Outcome.ok) ∧
          contentAt w2.fs (dir ++ name) = some d) := by
  have r1 : compressData euclid (e1.reader (w.fs.data i)) threads strategy e1.script = (bytes, Outcome.ok) := by
    obtain ⟨b, res, k1, k2, k3⟩ := compressData_noError euclid (e1.reader (w.fs.data i)) threads strategy e1.script hs1
    obtain ⟨es, f1, f2, f3⟩ := hr1 (w.fs.data i)
    rw [f1, encodeStream_steady _ _ _ _ _ f2 ht, f3, ← encodeStream_ofBytes _ _ _ _ _ ht] at k1
    unfold encodeBytes at hb
    rw [k1] at hb
    cases res with
    | ok u =>
      simp only [Res.ok.injEq] at hb
      exact Prod.ext ((k3 (by simp)).trans hb) k2
    | err => simp at hb
    | panic => simp at hb
    | div => simp at hb
  exact compress_decompress_of dir name hp threads strategy w i bytes e1 e2 hi hout ha1 ha2 hr2 ho1 ho2 hs2 r1

/-- **C51**, the part that holds: `compress` of a file, deletion of the file, `decompress` of the result: both commands end
with status 0 and the file is back, with the same content. For every path that ends in a file name,
every number of threads, every way the reads are split, when no write fails and `decompress`'s writes
are complete, for every content that the library itself gets back (`C01_round_trip_partial` and
`C28_round_trip_partial` say which). Missing: the other contents (`C51_refuted`). -/
theorem C51_round_trip_partial (dir name : List UInt8) (hp : FilePath dir name) (threads : Nat) (ht : 1 ≤ threads)
    (strategy : Strategy) (w : World) (i : Nat) (e1 e2 : ArgEnv)
    (hi : w.fs.dir (dir ++ name) = some i)
    (hout : w.fs.dir (dir ++ name ++ [46, 98, 122, 50]) = none)
    (ha1 : Alone e1) (ha2 : Alone e2) (hr1 : ReadsAll e1) (hr2 : ReadsAll e2)
    (ho1 : e1.openOk = true ∧ e1.createOk = true) (ho2 : e2.openOk = true ∧ e2.createOk = true)
    (hs1 : NoFileError e1.script) (hs2 : e2.script = [])
    (hlib : ∃ bytes, encodeBytes euclid (w.fs.data i) threads strategy = Res.ok bytes ∧
      decodeBytes bytes = Res.ok (w.fs.data i)) :
    ∃ w1 w2, (Command.compress threads strategy).main [(dir ++ name, e1)] w = (w1, Outcome.ok) ∧
      Command.decompress.main [(dir ++ name ++ [46, 98, 122, 50], e2)] (remove (dir ++ name) w1) = (w2, Outcome.ok) ∧
      contentAt w2.fs (dir ++ name) = some (w.fs.data i) := by
  obtain ⟨bytes, hb1, hb2⟩ := hlib
  obtain ⟨w1, h1, -, h3⟩ := compress_decompress dir name hp threads ht strategy w i bytes e1 e2 hi hout ha1 ha2 hr1 hr2
    ho1 ho2 hs1 hs2 hb1
  obtain ⟨w2, h4, h5⟩ := h3 _ hb2
  exact ⟨w1, w2, h1, h4, h5⟩

/-- A file system with one file, named `a`. -/
def oneFile (d : List UInt8) : FileSys where
  dir := fun q => if q = [97] then some 0 else none
  data := fun i => if i = 0 then d else []
  next := 1

/-- `calm`, in terms of which the hypotheses of C51 hold for the content of an empty file. (A reader of the
empty content must not deliver empty pieces.) -/
def calmReads : ArgEnv := { calm with reader := fun d => ⟨if d = [] then [] else [REvent.data d], false⟩ }

theorem calmReads_ok : Alone calmReads ∧ ReadsAll calmReads := by
  refine ⟨fun _ => ⟨rfl, rfl, rfl⟩, fun d => ⟨if d = [] then [] else [REvent.data d], rfl, ?_, ?_⟩⟩
  · intro e he
    split at he
    · simp at he
    · rename_i hd
      simp only [List.mem_singleton] at he
      exact Or.inr ⟨d, hd, he⟩
  · split
    · rename_i hd; simp [hd, scriptBytes]
    · simp [scriptBytes]

/-- "hello world!" and a zero byte, in a file `a`. -/
example : ∃ w1 w2, (Command.compress 4 Strategy.single).main [([97], calmReads)]
      ⟨oneFile [104, 101, 108, 108, 111, 32, 119, 111, 114, 108, 100, 33, 0], []⟩ = (w1, Outcome.ok) ∧
    Command.decompress.main [([97, 46, 98, 122, 50], calmReads)] (remove [97] w1) = (w2, Outcome.ok) ∧
    contentAt w2.fs [97] = some [104, 101, 108, 108, 111, 32, 119, 111, 114, 108, 100, 33, 0] :=
  C51_round_trip_partial [] [97] ⟨Or.inl rfl, by decide, by decide, by decide, by decide⟩ 4 (by omega)
    Strategy.single ⟨oneFile _, []⟩ 0 calmReads calmReads rfl rfl calmReads_ok.1 calmReads_ok.1 calmReads_ok.2
    calmReads_ok.2 ⟨rfl, rfl⟩ ⟨rfl, rfl⟩ (by intro e he; simp [calmReads, calm] at he) rfl
    (C01_round_trip_terminated_partial euclid [104, 101, 108, 108, 111, 32, 119, 111, 114, 108, 100, 33] 0 4 (by omega)
      (by decide) (by decide) (by decide))

/-- **C51 is false.** A file with the seven bytes `A.`, newline, newline, `B.`, newline: `compress` ends
with status 0, and after the file has been deleted `decompress` fails. For every number of threads, with
nothing else going wrong. -/
theorem C51_refuted (threads : Nat) (ht : 1 ≤ threads) :
    ∃ w1, (Command.compress threads Strategy.single).main [([97], calmReads)]
        ⟨oneFile [65, 46, 10, 10, 66, 46, 10], []⟩ = (w1, Outcome.ok) ∧
      (Command.decompress.main [([97, 46, 98, 122, 50], calmReads)] (remove [97] w1)).2 = Outcome.panic := by
  obtain ⟨d, rfl, hd⟩ := C01_refuted
  obtain ⟨bytes, h1, h2⟩ := hd euclid threads ht
  obtain ⟨w1, k1, k2, -⟩ := compress_decompress [] [97] ⟨Or.inl rfl, by decide, by decide, by decide, by decide⟩
    threads ht Strategy.single ⟨oneFile [65, 46, 10, 10, 66, 46, 10], []⟩ 0 bytes calmReads calmReads rfl rfl
    calmReads_ok.1 calmReads_ok.1 calmReads_ok.2 calmReads_ok.2 ⟨rfl, rfl⟩ ⟨rfl, rfl⟩
    (by intro e he; simp [calmReads, calm] at he) rfl h1
  exact ⟨w1, k1, k2 (Or.inl h2)⟩

/-! ### C52 -/

/-- **C52 is false, always.** Once a run of `compress` or `decompress` has got as far as creating its
output — whether it then succeeded, panicked or was stopped — every later run with the same argument is
refused, although the cause of the failure may be gone: the partial output stays. -/
theorem C52_refuted_retry_is_refused (c : Command) (env env' : ArgEnv) (p : Path) (w : World)
    (ha : Alone env) (ha' : Alone env') (h : (c.one env p w).2 ≠ Outcome.fileError) :
    (c.one env' p (c.one env p w).1).2 = Outcome.fileError := by
  rcases one_cases c env p w (fun fs h => by rw [(ha fs).2.2]; exact h) with ⟨h1, -, -⟩ | ⟨i, fs, -, -, -, -, -, h6⟩
  · exact absurd h1 h
  · rw [h6]
    generalize hw' : (World.mk _ _) = w'
    rcases one_cases c env' p w' (fun fs h => by rw [(ha' fs).2.2]; exact h) with ⟨h1, -, -⟩ | ⟨_, _, _, _, _, k4, _, _⟩
    · exact h1
    · rw [(ha' _).1, (ha' _).2.1, ← hw'] at k4
      simp at k4

/-- A failing run: `decompress` of a file that is not a bzip2 file panics, and leaves an empty file. -/
example : (Command.decompress.one calmReads [97, 46, 98] ⟨⟨fun q => if q = [97, 46, 98] then some 0 else none,
      fun _ => [1, 2, 3], 1⟩, []⟩).2 = Outcome.panic ∧
    contentAt (Command.decompress.one calmReads [97, 46, 98] ⟨⟨fun q => if q = [97, 46, 98] then some 0 else none,
      fun _ => [1, 2, 3], 1⟩, []⟩).1.fs [97] = some [] := by
  decide +kernel

/-- **C52**, the part that holds: a run that was refused leaves everything as it was, so that it can be
repeated. -/
theorem C52_refused_run_can_be_repeated_partial (c : Command) (env env' : ArgEnv) (p : Path) (w : World)
    (hw : WellFormed w.fs) (ha : Alone env) (h : (c.one env p w).2 = Outcome.fileError) :
    (c.one env' p (c.one env p w).1).2 = (c.one env' p w).2 ∧
    (c.one env' p (c.one env p w).1).1.fs = (c.one env' p w).1.fs := by
  have h1 := (C44_only_the_output_changes c env p w hw ha).2 h
  obtain ⟨fs, tt⟩ := w
  rcases hx : c.one env p ⟨fs, tt⟩ with ⟨⟨fs', t'⟩, o⟩
  rw [hx] at h1
  simp only at h1
  subst h1
  have key : ∀ t1 t2 : List Nat, (c.one env' p ⟨fs', t1⟩).2 = (c.one env' p ⟨fs', t2⟩).2 ∧
      (c.one env' p ⟨fs', t1⟩).1.fs = (c.one env' p ⟨fs', t2⟩).1.fs := by
    intro t1 t2
    unfold Command.one openBoth
    dsimp only
    rcases (env'.before fs').dir p with _ | i
    · exact ⟨rfl, rfl⟩
    · cases env'.openOk with
      | false => exact ⟨rfl, rfl⟩
      | true =>
        simp only
        rcases (env'.beforeCheck (env'.before fs')).dir (c.outName p) with _ | j
        · simp only
          cases env'.createOk with
          | false => exact ⟨rfl, rfl⟩
          | true => exact ⟨rfl, rfl⟩
        · exact ⟨rfl, rfl⟩
  exact key t' tt

/-- A refused run: the argument does not exist. -/
example : WellFormed twoFiles ∧ Alone calm ∧
    (Command.decompress.one calm [99] ⟨twoFiles, []⟩).2 = Outcome.fileError := by
  refine ⟨?_, fun _ => ⟨rfl, rfl, rfl⟩, by decide +kernel⟩
  intro p i h
  simp only [twoFiles] at h ⊢
  split at h <;> try split at h
  all_goals simp_all
  all_goals omega

end Ribzip2
