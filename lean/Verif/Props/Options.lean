import Verif.Proofs.Options
import Verif.Proofs.Unique
import Verif.Props.Cli
/- Property C67: the options of the command line. -/
namespace Ribzip2
open Spec

/-- The threads a run of `compress` uses: what was asked for, or one for each processor. -/
def ThreadsOk (threads : Option Nat) (numCpus : Nat) : Prop :=
  (∃ t, threads = some t ∧ 1 ≤ t) ∨ (threads = none ∧ 1 ≤ numCpus)

theorem threadsOk_pos {threads : Option Nat} {n : Nat} (h : ThreadsOk threads n) : 1 ≤ cliThreads threads n := by
  rcases h with ⟨t, rfl, h⟩ | ⟨rfl, h⟩ <;> exact h

theorem one_threads (t1 t2 : Nat) (h1 : 1 ≤ t1) (h2 : 1 ≤ t2) (strategy : Strategy) (env : ArgEnv) (hr : ReadsAll env)
    (p : Path) (w : World) :
    (Command.compress t1 strategy).one env p w = (Command.compress t2 strategy).one env p w := by
  have h : ∀ input, compressData euclid (env.reader input) t1 strategy env.script
      = compressData euclid (env.reader input) t2 strategy env.script := by
    intro input
    obtain ⟨es, e1, e2, -⟩ := hr input
    simp only [compressData, e1, encodeStream_steady _ _ _ _ _ e2 h1, encodeStream_steady _ _ _ _ _ e2 h2]
  simp only [Command.one, Command.outName, Command.run, h]

/-- **C67.** What `compress` does (the files it leaves and the exit status) does not depend on `--threads`
nor on the number of processors, as long as there is at least one thread. -/
theorem C67_threads_do_not_matter (input : List Path) (th1 th2 : Option Nat) (n1 n2 : Nat)
    (enc : Option EncodingOptions) (h1 : ThreadsOk th1 n1) (h2 : ThreadsOk th2 n2) (envs : Nat → ArgEnv)
    (hr : ∀ i, ReadsAll (envs i)) (w : World) :
    tryMain n1 (Opt.compress input th1 enc) envs w = tryMain n2 (Opt.compress input th2 enc) envs w := by
  have key : ∀ (l : List (Path × ArgEnv)), (∀ a ∈ l, ReadsAll a.2) → ∀ w,
      (Command.compress (cliThreads th1 n1) (cliStrategy enc)).main l w
        = (Command.compress (cliThreads th2 n2) (cliStrategy enc)).main l w := by
    intro l
    induction l with
    | nil => intro _ w; rfl
    | cons a l ih =>
      intro ha w
      simp only [Command.main]
      rw [one_threads _ _ (threadsOk_pos h1) (threadsOk_pos h2) _ _ (ha a (by simp))]
      rcases (Command.compress (cliThreads th2 n2) (cliStrategy enc)).one a.2 a.1 w with ⟨w1, o⟩
      cases o <;> first | rfl | exact ih (fun b hb => ha b (by simp [hb])) w1
  refine key _ ?_ w
  intro a ha
  obtain ⟨x, -, rfl⟩ := List.mem_map.1 ha
  exact hr x.2

/-- `compress` with the options `threads` and `enc` of a file with the content `data`, undisturbed, ends with
status 0, and the output file is one of which `P` holds. -/
def Compresses (threads : Option Nat) (numCpus : Nat) (enc : Option EncodingOptions) (P : List UInt8 → Prop)
    (data : List UInt8) : Prop :=
  ∀ (p : Path) (w : World) (i : Nat) (envs : Nat → ArgEnv), w.fs.dir p = some i → w.fs.data i = data →
    w.fs.dir (compressName p) = none → Alone (envs 0) → ReadsAll (envs 0) → (envs 0).openOk = true →
    (envs 0).createOk = true → NoFileError (envs 0).script →
    ∃ w' file, tryMain numCpus (Opt.compress [p] threads enc) envs w = (w', Outcome.ok) ∧
      contentAt w'.fs (compressName p) = some file ∧ P file

theorem one_opened (c : Command) (env : ArgEnv) (p : Path) (w : World) (i : Nat) (hi : w.fs.dir p = some i)
    (hout : w.fs.dir (c.outName p) = none) (ha : Alone env) (ho : env.openOk = true) (hc : env.createOk = true) :
    (c.one env p w).2 ≠ Outcome.fileError := by
  have h : (c.one env p w).2 = (c.run (env.reader (w.fs.data i)) env.script).2 := by
    simp only [Command.one, openBoth, (ha _).1, (ha _).2.1, (ha _).2.2, hi, ho, hout, hc, if_true]
  rw [h]
  exact run_ne_fileError _ _ _

theorem compresses_of (threads : Option Nat) (numCpus : Nat) (ht : ThreadsOk threads numCpus)
    (enc : Option EncodingOptions) (P : List UInt8 → Prop) (data : List UInt8) (bytes : List UInt8)
    (h : encodeBytes euclid data (cliThreads threads numCpus) (cliStrategy enc) = Res.ok bytes) (hP : P bytes) :
    Compresses threads numCpus enc P data := by
  intro p w i envs hi hd hout ha hr ho hc hs
  obtain ⟨es, e1, e2, e3⟩ := hr (w.fs.data i)
  have hst : encodeStream euclid ((envs 0).reader (w.fs.data i)) Writer.empty (cliThreads threads numCpus)
      (cliStrategy enc) = (⟨bytes, []⟩, Res.ok ()) := by
    rw [e1, encodeStream_steady _ _ _ _ _ e2 (threadsOk_pos ht), e3, hd, ← encodeStream_ofBytes _ _ _ _ _ (threadsOk_pos ht)]
    rw [encodeBytes] at h
    obtain ⟨bytes', res, k1, -⟩ := compressData_noError euclid (Reader.ofBytes data) (cliThreads threads numCpus)
      (cliStrategy enc) [] (by intro e he; simp at he)
    rw [k1] at h ⊢
    cases res <;> simp_all
  rcases hone : (Command.compress (cliThreads threads numCpus) (cliStrategy enc)).one (envs 0) p w with ⟨w', o⟩
  have hm : tryMain numCpus (Opt.compress [p] threads enc) envs w = (w', o) := by
    simp only [tryMain, List.zipIdx_cons, List.zipIdx_nil, List.map_cons, List.map_nil, main_single, hone]
  have hne : o ≠ Outcome.fileError := by
    have := one_opened (Command.compress (cliThreads threads numCpus) (cliStrategy enc)) (envs 0) p w i hi hout ha ho hc
    rw [hone] at this
    exact this
  obtain ⟨i', f1, -, f3, f4⟩ := compress_one _ _ _ _ _ _ _ hne ha hone
  rw [hi, Option.some.injEq] at f1
  subst f1
  obtain ⟨b', r', k1, k2, k3⟩ := compressData_noError euclid ((envs 0).reader (w.fs.data i)) (cliThreads threads numCpus)
    (cliStrategy enc) (envs 0).script hs
  rw [hst, Prod.mk.injEq, Writer.mk.injEq] at k1
  obtain ⟨⟨rfl, -⟩, rfl⟩ := k1
  refine ⟨w', bytes, ?_, by rw [f3, k3 (by simp)], hP⟩
  rw [hm, ← f4, k2, outcomeOf]

/-- **C67**, without a subcommand and with `single`: every block has two tables of which only the first is
used. -/
theorem C67_single (threads : Option Nat) (numCpus : Nat) (ht : ThreadsOk threads numCpus) (enc : Option EncodingOptions)
    (he : enc = none ∨ enc = some EncodingOptions.single) (data : List UInt8) :
    Compresses threads numCpus enc (BlocksAll (UsesFirstTable 2) data) data := by
  have hs : cliStrategy enc = Strategy.single := by rcases he with rfl | rfl <;> rfl
  obtain ⟨bytes, h1, h2⟩ := encodeBytes_blocksAll euclid Strategy.single (UsesFirstTable 2)
    (body_firstTable euclid _ 2 (by omega) (single_workable euclid) (by
      intro rle zle rep hne hl h
      exact single_zero euclid rle hne hl zle rep h)) data (cliThreads threads numCpus) (threadsOk_pos ht)
  exact compresses_of _ _ ht _ _ _ bytes (by rw [hs]; exact h1) h2

/-- **C67**, `--num-tables`: with `k-means` every block has as many tables as asked for (1 to 7), 6 if nothing
is said, whatever `--iterations`. -/
theorem C67_number_of_tables (threads : Option Nat) (numCpus : Nat) (ht : ThreadsOk threads numCpus)
    (iterations numTables : Option Nat) (n : Nat) (hn : numTables = some n ∨ numTables = none ∧ n = 6)
    (h1 : 1 ≤ n) (h7 : n ≤ 7) (data : List UInt8) :
    Compresses threads numCpus (some (kMeansOf iterations numTables)) (BlocksAll (AnnouncesTables n) data) data := by
  have hs : cliStrategy (some (kMeansOf iterations numTables)) = Strategy.blockWise n (iterations.getD 3) := by
    rcases hn with rfl | ⟨rfl, rfl⟩ <;> rfl
  obtain ⟨bytes, k1, k2⟩ := encodeBytes_blocksAll euclid (Strategy.blockWise n (iterations.getD 3)) (AnnouncesTables n)
    (body_announces euclid _ n (by omega) (blockWise_workable euclid n _ h1)) data
    (cliThreads threads numCpus) (threadsOk_pos ht)
  exact compresses_of _ _ ht _ _ _ bytes (by rw [hs]; exact k1) k2

/-- **C67**, `--iterations 0`: no block uses another table than the first. -/
theorem C67_no_iterations (threads : Option Nat) (numCpus : Nat) (ht : ThreadsOk threads numCpus)
    (n : Nat) (h1 : 1 ≤ n) (h7 : n ≤ 7) (data : List UInt8) :
    Compresses threads numCpus (some (kMeansOf (some 0) (some n))) (BlocksAll (UsesFirstTable n) data) data := by
  obtain ⟨bytes, k1, k2⟩ := encodeBytes_blocksAll euclid (Strategy.blockWise n 0) (UsesFirstTable n)
    (body_firstTable euclid _ n (by omega) (blockWise_workable euclid n _ h1) (by
      intro rle zle rep hne _ h
      exact (blockWise_stats euclid n 0 h1 rle hne zle rep h).2.2.1 rfl)) data
    (cliThreads threads numCpus) (threadsOk_pos ht)
  exact compresses_of _ _ ht _ _ _ bytes k1 k2

/-- **C67**, `decompress`: the output file is what the library decodes the input file to, and the status is 0
if it does, whatever the number of processors; otherwise the program panics. -/
theorem C67_decompress (numCpus : Nat) (p : Path) (w : World) (i : Nat) (envs : Nat → ArgEnv)
    (hi : w.fs.dir p = some i) (hout : w.fs.dir (decompressName p) = none) (ha : Alone (envs 0))
    (hr : ReadsAll (envs 0)) (ho : (envs 0).openOk = true) (hc : (envs 0).createOk = true)
    (hs : (envs 0).script = []) :
    (∀ d, decodeBytes (w.fs.data i) = Res.ok d →
      ∃ w', tryMain numCpus (Opt.decompress [p]) envs w = (w', Outcome.ok) ∧
        contentAt w'.fs (decompressName p) = some d) ∧
    (decodeBytes (w.fs.data i) = Res.err ∨ decodeBytes (w.fs.data i) = Res.panic →
      (tryMain numCpus (Opt.decompress [p]) envs w).2 = Outcome.panic) := by
  have hm : tryMain numCpus (Opt.decompress [p]) envs w = Command.decompress.one (envs 0) p w := by
    simp only [tryMain, List.zipIdx_cons, List.zipIdx_nil, List.map_cons, List.map_nil, main_single]
  obtain ⟨es, f1, f2, f3⟩ := hr (w.fs.data i)
  have r2 : decodeStream ((envs 0).reader (w.fs.data i)) ⟨[], []⟩
      = decodeStream (Reader.ofBytes (w.fs.data i)) Writer.empty := by
    rw [f1, Writer.empty, decodeStream_reliable, decodeStream_reliable, delivered_steady _ f2, f3]
    simp [Reader.ofBytes]
  rw [hm]
  simp only [Command.one, openBoth, (ha _).1, (ha _).2.1, (ha _).2.2, hi, ho, hc, if_true,
      Command.outName, hout]
  rw [create_fresh _ _ hout]
  simp only [Command.run, FileSys.put, hs]
  unfold decompressData decodeBytes
  simp only [List.map_nil, r2]
  rcases decodeStream (Reader.ofBytes (w.fs.data i)) Writer.empty with ⟨wr, r⟩
  cases r with
  | ok u => simp [contentAt]
  | err => simp
  | panic => simp
  | div => simp

/-- The hypotheses are met: `a.bz2` is what the library makes of the bytes 3, 2, 1. -/
example : ∃ bytes, encodeBytes euclid [3, 2, 1] 1 Strategy.single = Res.ok bytes ∧
    ∃ w', tryMain 4 (Opt.decompress [[97, 46, 98, 122, 50]]) (fun _ => calmReads)
        ⟨⟨fun p => if p = [97, 46, 98, 122, 50] then some 0 else none, fun _ => bytes, 1⟩, []⟩ = (w', Outcome.ok) ∧
      contentAt w'.fs (decompressName [97, 46, 98, 122, 50]) = some [3, 2, 1] := by
  obtain ⟨bytes, h1, h2⟩ := C01_round_trip_terminated_partial euclid [3, 2] 1 1 (by omega) (by simp) (by decide) (by decide)
  exact ⟨bytes, h1, (C67_decompress 4 _ _ 0 (fun _ => calmReads) rfl
    (by change (if decompressName [97, 46, 98, 122, 50] = [97, 46, 98, 122, 50] then some 0 else none) = none; decide)
    calmReads_ok.1 calmReads_ok.2 rfl rfl rfl).1
    _ h2⟩

/-- The hypotheses are met: `compress a` and `compress a k-means` on a machine with 8 processors, `a` being a
file of three bytes. -/
example : ThreadsOk none 8 ∧ ThreadsOk (some 2) 0 ∧
    (∃ w' file, tryMain 8 (Opt.compress [[97]] none none) (fun _ => calmReads) ⟨oneFile [3, 1, 2], []⟩ = (w', Outcome.ok) ∧
      contentAt w'.fs (compressName [97]) = some file ∧ BlocksAll (UsesFirstTable 2) [3, 1, 2] file) ∧
    (∃ w' file, tryMain 8 (Opt.compress [[97]] none (some (kMeansOf none none))) (fun _ => calmReads)
        ⟨oneFile [3, 1, 2], []⟩ = (w', Outcome.ok) ∧
      contentAt w'.fs (compressName [97]) = some file ∧ BlocksAll (AnnouncesTables 6) [3, 1, 2] file) := by
  refine ⟨Or.inr ⟨rfl, by omega⟩, Or.inl ⟨2, rfl, by omega⟩, ?_, ?_⟩
  · exact C67_single none 8 (Or.inr ⟨rfl, by omega⟩) none (Or.inl rfl) _ _ _ 0 _ rfl rfl rfl calmReads_ok.1
      calmReads_ok.2 rfl rfl (by intro e he; simp [calmReads, calm] at he)
  · exact C67_number_of_tables none 8 (Or.inr ⟨rfl, by omega⟩) none none 6 (Or.inr ⟨rfl, rfl⟩) (by omega) (by omega)
      _ _ _ 0 _ rfl rfl rfl calmReads_ok.1 calmReads_ok.2 rfl rfl (by intro e he; simp [calmReads, calm] at he)

/-- The number of tables announced is determined by the bits of the block. -/
theorem announcesTables_unique (n m : Nat) (hn : n < 8) (hm : m < 8) (body : List Bool) (h : AnnouncesTables n body)
    (h' : AnnouncesTables m body) : n = m := by
  obtain ⟨ptr, used, rest, rfl⟩ := h
  obtain ⟨ptr', used', rest', h'⟩ := h'
  simp only [List.append_assoc, List.cons_append, List.nil_append, List.cons.injEq, true_and] at h'
  obtain ⟨-, h'⟩ := List.append_inj h' (by rw [natToBits_length, natToBits_length])
  have h1 := pSymbolTable_map used (natToBits 3 n ++ rest)
  rw [h', pSymbolTable_map used' (natToBits 3 m ++ rest')] at h1
  simp only [Res.ok.injEq, Prod.mk.injEq] at h1
  exact (natToBits_peel (by omega) (by omega) h1.2).1.symm

theorem mainLoop_zero (gen : Work → Res (List Bit)) (ft : Bool) (fuel : Nat) (es : List REvent) (bw : BitWriter)
    (crc : BitVec 32) : (mainLoop gen ft 0 fuel es false bw crc).2 = Res.div := by
  induction fuel generalizing es bw crc with
  | zero => rfl
  | succ fuel ih =>
    simp only [mainLoop, sendLoop, flushLoop]
    exact ih es bw crc

theorem encodeStream_zero (dist : Distance) (r : Reader) (strategy : Strategy) :
    (encodeStream dist r Writer.empty 0 strategy).2 = Res.div := by
  unfold encodeStream encodeStreamFuel
  obtain ⟨bw1, a1, -⟩ := (BitWriter.fromWriter Writer.empty).writeBits_good fileHeader (BitWriter.good_from [])
  simp only [a1, Res.unwrap_ok, andThen_eq, mainLoop_zero]

theorem compress_zero (strategy : Strategy) (env : ArgEnv) (p : Path) (w w' : World) (o : Outcome) (ha : Alone env)
    (hs : NoFileError env.script) (hone : (Command.compress 0 strategy).one env p w = (w', o))
    (hne : o ≠ Outcome.fileError) : o = Outcome.div := by
  obtain ⟨i, -, -, -, f4⟩ := compress_one _ _ _ _ _ _ _ hne ha hone
  obtain ⟨bytes, res, k1, k2, -⟩ := compressData_noError euclid (env.reader (w.fs.data i)) 0 strategy env.script hs
  have hr := encodeStream_zero euclid (env.reader (w.fs.data i)) strategy
  rw [k1] at hr
  simp only at hr
  rw [← f4, k2, hr, outcomeOf]

/-- **C48 is false** at the command line: `compress --threads 0` on a file that can be opened, and whose output
can be created, never ends. -/
theorem C48_refuted_on_the_command_line (numCpus : Nat) (enc : Option EncodingOptions) (p : Path) (w : World) (i : Nat)
    (envs : Nat → ArgEnv) (hi : w.fs.dir p = some i) (hout : w.fs.dir (compressName p) = none) (ha : Alone (envs 0))
    (ho : (envs 0).openOk = true) (hc : (envs 0).createOk = true) (hs : NoFileError (envs 0).script) :
    (tryMain numCpus (Opt.compress [p] (some 0) enc) envs w).2 = Outcome.div := by
  rcases hone : (Command.compress 0 (cliStrategy enc)).one (envs 0) p w with ⟨w', o⟩
  have hm : tryMain numCpus (Opt.compress [p] (some 0) enc) envs w = (w', o) := by
    simp only [tryMain, List.zipIdx_cons, List.zipIdx_nil, List.map_cons, List.map_nil, main_single, cliThreads,
      Option.getD_some, hone]
  rw [hm]
  refine compress_zero _ _ _ _ _ _ ha hs hone ?_
  have := one_opened (Command.compress 0 (cliStrategy enc)) (envs 0) p w i hi hout ha ho hc
  rw [hone] at this
  exact this

/-- The hypotheses are met by the file `a` of three bytes. -/
example : (tryMain 4 (Opt.compress [[97]] (some 0) none) (fun _ => calmReads) ⟨oneFile [3, 1, 2], []⟩).2 = Outcome.div :=
  C48_refuted_on_the_command_line 4 none [97] ⟨oneFile [3, 1, 2], []⟩ 0 (fun _ => calmReads) rfl rfl calmReads_ok.1 rfl rfl
    (by intro e he; simp [calmReads, calm] at he)

/-- Instance of C67_threads_do_not_matter: two threads on one processor, or one for each of eight processors. -/
example (w : World) : tryMain 1 (Opt.compress [[97], [98]] (some 2) none) (fun _ => calmReads) w
    = tryMain 8 (Opt.compress [[97], [98]] none none) (fun _ => calmReads) w :=
  C67_threads_do_not_matter _ _ _ _ _ _ (Or.inl ⟨2, rfl, by omega⟩) (Or.inr ⟨rfl, by omega⟩) _ (fun _ => calmReads_ok.2) w

/-- Instance of C67_no_iterations. -/
example (data : List UInt8) : Compresses none 8 (some (kMeansOf (some 0) (some 3))) (BlocksAll (UsesFirstTable 3) data) data :=
  C67_no_iterations none 8 (Or.inr ⟨rfl, by omega⟩) 3 (by omega) (by omega) data

end Ribzip2
