import Verif.Proofs.TogetherApart
import Verif.Proofs.TogetherSame
import Verif.Proofs.Banana
import Verif.Props.Options
/- C90: several runs of the program at the same time. -/
namespace Ribzip2
open Spec Together

/-- A run that has ended, and how. -/
def Spec.Finished : Pc → Outcome → Prop
  | Pc.refused, o => o = Outcome.fileError
  | Pc.ended o', o => o = o'
  | _, _ => False

theorem aloneEnv_before (j : Job) (fs : FileSys) : (aloneEnv j).before fs = fs := rfl
theorem aloneEnv_beforeCheck (j : Job) (fs : FileSys) : (aloneEnv j).beforeCheck fs = fs := rfl
theorem aloneEnv_beforeCreate (j : Job) (fs : FileSys) : (aloneEnv j).beforeCreate fs = fs := rfl

/-- **C90**, files that are there: whatever the runs and however their system calls are interleaved, at every moment all
files there were at the beginning are still there with their contents, and there is no other new file than
outputs of the runs. -/
theorem C90_existing_files_unchanged (jobs : List Job) (fs0 : FileSys) (hw : WellFormed fs0) (s : State)
    (h : Reach jobs fs0 s) :
    (∀ p bytes, contentAt fs0 p = some bytes → contentAt s.fs p = some bytes) ∧
    (∀ p, (∀ j ∈ jobs, p ≠ j.out) → contentAt s.fs p = contentAt fs0 p) := by
  obtain ⟨-, hb, -⟩ := reach_base hw h
  have key : ∀ p bytes, contentAt fs0 p = some bytes → contentAt s.fs p = some bytes := by
    intro p bytes hp
    simp only [contentAt, Option.map_eq_some_iff] at hp ⊢
    obtain ⟨i, h1, h2⟩ := hp
    exact ⟨i, hb.keep p i h1, by rw [hb.data i (hw p i h1)]; exact h2⟩
  refine ⟨key, fun p hp => ?_⟩
  cases h0 : contentAt fs0 p with
  | some bytes => exact key p bytes h0
  | none =>
    simp only [contentAt, Option.map_eq_none_iff] at h0 ⊢
    cases h1 : s.fs.dir p with
    | none => rfl
    | some i =>
      rcases hb.new p i h1 with h2 | ⟨-, -, j, h2, h3⟩
      · rw [h0] at h2; simp at h2
      · exact absurd h3 (hp j h2)

/-- **C90**, runs that do not meet: if no two runs with the same output path ever stand between `exists()` and
`File::create`, and no input is the output of another run, then a run that has ended without a message has read the
input as it was at the beginning, its output was not there at the beginning and has exactly the bytes the run
wrote; and no other run with the same output path has ended this way.
Missing from the full property: runs that do meet (see `C90_refuted_mixed` and `C90_refuted_emptied`). -/
theorem C90_apart_partial (jobs : List Job) (fs0 : FileSys) (hw : WellFormed fs0) (hin : Unrelated jobs) (s : State)
    (h : ReachApart jobs fs0 s) (k : Nat) (j : Job) (o : Outcome) (hj : jobs[k]? = some j)
    (hpc : s.pcs[k]? = some (Pc.ended o)) :
    (∃ input, contentAt fs0 j.path = some input ∧ contentAt fs0 j.out = none ∧
      contentAt s.fs j.out = some (j.result input).1 ∧ o = (j.result input).2) ∧
    ∀ (l : Nat) (j' : Job) (o' : Outcome), l ≠ k → jobs[l]? = some j' → j'.out = j.out →
      s.pcs[l]? ≠ some (Pc.ended o') := by
  have hinv := reachApart_inv hw hin h
  constructor
  · obtain ⟨i, input, ⟨-, i0, h1, h2⟩, h3, h4, h5, h6, h7, h8⟩ := hinv.pc k j _ hj hpc
    refine ⟨input, by rw [contentAt, h1, h2]; rfl, by rw [contentAt, h6]; rfl, ?_, h8⟩
    rw [contentAt, h4, Option.map_some, h7]
  · intro l j' o' hl hj' ho hpc'
    exact hinv.one k l j j' _ _ (fun h => hl h.symm) hj hj' ho.symm hpc hpc' trivial trivial

/-- **C90**, different outputs: runs with different output paths, none of which is an input of another run, do not
disturb each other: in every interleaving each run ends as it would have ended alone, and leaves
at its output path what it would have left there alone. Missing from the full property: runs with the same output path. -/
theorem C90_different_outputs_partial (jobs : List Job) (fs0 : FileSys) (hw : WellFormed fs0) (hin : Unrelated jobs)
    (hd : DifferentOutputs jobs) (s : State) (h : Reach jobs fs0 s) (k : Nat) (j : Job) (pc : Pc) (o : Outcome)
    (hj : jobs[k]? = some j) (hpc : s.pcs[k]? = some pc) (hf : Finished pc o) :
    ∃ w, j.cmd.one (aloneEnv j) j.path ⟨fs0, []⟩ = (w, o) ∧ contentAt s.fs j.out = contentAt w.fs j.out := by
  have hap : ReachApart jobs fs0 s := by
    induction h with
    | init => exact ReachApart.init
    | step s s' h1 hs ih =>
      clear ih
      have : ∀ s, Reach jobs fs0 s → ReachApart jobs fs0 s := by
        intro s h
        induction h with
        | init => exact ReachApart.init
        | step s s' _ hs ih =>
          exact ReachApart.step s s' ih hs (fun k l j j' _ _ hkl h1 h2 ho _ _ => hd k l j j' hkl h1 h2 ho)
      exact this s' (Reach.step s s' h1 hs)
  have hinv := reachApart_inv hw hin hap
  have hme := hinv.pc k j pc hj hpc
  cases pc with
  | refused =>
    have hdir : s.fs.dir j.out = fs0.dir j.out := by
      rcases hinv.origin j.out with h1 | ⟨l, j', pc2, h1, h2, h3, h4⟩
      · exact h1
      · by_cases hl : l = k
        · subst hl
          rw [hpc, Option.some.injEq] at h2
          rw [← h2] at h4
          exact absurd h4 (by simp [Owns])
        · exact absurd h3 (hd l k j' j hl h1 hj)
    have hcont : contentAt s.fs j.out = contentAt fs0 j.out := by
      obtain ⟨-, hb, -⟩ := reach_base hw h
      rw [contentAt, contentAt, hdir]
      cases h0 : fs0.dir j.out with
      | none => rfl
      | some i => rw [Option.map_some, Option.map_some, hb.data i (hw _ _ h0)]
    have ho : o = Outcome.fileError := hf
    refine ⟨⟨fs0, []⟩, ?_, hcont⟩
    subst ho
    have hno : openBoth j.cmd.outName (aloneEnv j) j.path ⟨fs0, []⟩ = (⟨fs0, []⟩, none) := by
      simp only [PcApart] at hme
      simp only [openBoth, aloneEnv_before, aloneEnv_beforeCheck, aloneEnv_beforeCreate]
      split
      · rename_i i h1 h2
        have h2 : j.openOk = true := h2
        split
        · rfl
        · rename_i h3
          have h3 : fs0.dir j.out = none := h3
          have h3' : s.fs.dir j.out = none := by rw [hdir]; exact h3
          rcases hme with h4 | h4 | h4 | ⟨x, h4⟩
          · rw [h1] at h4; simp at h4
          · rw [h2] at h4; simp at h4
          · rw [if_neg (by rw [show (aloneEnv j).createOk = false from h4]; simp)]
          · rw [h3'] at h4; simp at h4
      · rfl
    rw [Command.one, hno]
  | ended o' =>
    have ho : o = o' := hf
    subst ho
    obtain ⟨i, input, ⟨h0, i0, h1, h2⟩, h3, h4, h5, h6, h7, h8⟩ := hme
    have hyes : openBoth j.cmd.outName (aloneEnv j) j.path ⟨fs0, []⟩
        = (⟨withNew fs0 j.out, [fs0.next]⟩, some (input, fs0.next)) := by
      have h6' : fs0.dir (j.cmd.outName j.path) = none := h6
      simp only [openBoth, aloneEnv_before, aloneEnv_beforeCheck, aloneEnv_beforeCreate, h1,
        show (aloneEnv j).openOk = true from h0, h6']
      rw [if_pos (show (aloneEnv j).createOk = true from h3)]
      simp only [FileSys.create, h6', h2, withNew, Job.out]
      rfl
    refine ⟨⟨(withNew fs0 j.out).put fs0.next (j.result input).1, [fs0.next, fs0.next]⟩, ?_, ?_⟩
    · rw [Command.one, hyes]
      simp only [h8, Job.result, aloneEnv]
    · rw [contentAt, h4, Option.map_some, h7]
      simp [contentAt, FileSys.put, withNew]
  | start => exact hf.elim
  | opened _ => exact hf.elim
  | checked _ => exact hf.elim
  | writing _ _ _ => exact hf.elim

/-- **C90**, the same output: if all runs have the same output path and would write the same bytes, then after all have
ended, and one of them not with a message, the output has exactly these bytes, in whatever order the checks, creations
and writes came. Missing from the full property: runs that write different bytes, and the time before all have ended. -/
theorem C90_same_bytes_partial (jobs : List Job) (fs0 : FileSys) (hw : WellFormed fs0) (q : Path) (bytes : List UInt8)
    (hq : ∀ j ∈ jobs, j.out = q ∧ j.path ≠ q) (h0 : contentAt fs0 q = none)
    (hB : ∀ j ∈ jobs, ∀ input, contentAt fs0 j.path = some input → (j.result input).1 = bytes)
    (s : State) (h : Reach jobs fs0 s) (hend : ∀ pc ∈ s.pcs, ∃ o, Finished pc o)
    (hone : ∃ o, Pc.ended o ∈ s.pcs) :
    contentAt s.fs q = some bytes := by
  have hs := reach_same hw (fun j hj => (hq j hj).1) (fun j hj => (hq j hj).2) (by simpa [contentAt] using h0)
    (fun j hj i hi => hB j hj _ (by rw [contentAt, hi]; rfl)) h
  obtain ⟨o, ho⟩ := hone
  obtain ⟨k, hk, hk'⟩ := List.mem_iff_getElem.1 ho
  obtain ⟨i, hi⟩ := hs.there k o (by rw [List.getElem?_eq_getElem hk, hk'])
  obtain ⟨h1, h2⟩ := hs.file i hi
  rw [contentAt, hi, Option.map_some, Option.some.injEq]
  apply List.ext_getElem?
  intro x
  by_cases hx : x < bytes.length
  · rcases h2 x hx with h3 | ⟨l, f, o', input, h3, -⟩
    · exact h3
    · obtain ⟨o'', h4⟩ := hend _ (List.mem_of_getElem? h3)
      exact h4.elim
  · rw [List.getElem?_eq_none (by omega), List.getElem?_eq_none (by omega)]

/-- What `compress` writes if the system makes no trouble. -/
theorem compressData_bytes (r : Reader) (es : List REvent) (data bytes : List UInt8) (t : Nat) (strategy : Strategy)
    (script : List FEvent) (ht : 1 ≤ t) (hs : NoFileError script) (hr : r = ⟨es, false⟩) (hes : Steady es)
    (hd : scriptBytes es = data) (h : encodeBytes euclid data 1 strategy = Res.ok bytes) :
    compressData euclid r t strategy script = (bytes, Outcome.ok) := by
  have hst : encodeStream euclid r Writer.empty t strategy = (⟨bytes, []⟩, Res.ok ()) := by
    rw [hr, encodeStream_steady _ _ _ _ _ hes ht, hd, ← encodeStream_ofBytes _ _ _ 1 _ (Nat.le_refl 1)]
    rw [encodeBytes] at h
    obtain ⟨bytes', res, k1, -⟩ := compressData_noError euclid (Reader.ofBytes data) 1 strategy [] (by intro e he; simp at he)
    rw [k1] at h ⊢
    cases res <;> simp_all
  obtain ⟨b', r', k1, k2, k3⟩ := compressData_noError euclid r t strategy script hs
  rw [hst, Prod.mk.injEq, Writer.mk.injEq] at k1
  obtain ⟨⟨rfl, -⟩, rfl⟩ := k1
  rw [← k3 (by simp), show Outcome.ok = (compressData euclid r t strategy script).2 by rw [k2]; rfl]

/-- **C90**, the same file: if any number of `compress` runs work on the same file at the same time, with the same strategy and
any numbers of threads, and reads and writes do not fail, then after all have ended, and one of them not with a
message, the output is the compressed file, in whatever order the system calls came.
Missing from the full property: runs with different strategies, and the time before all have ended. -/
theorem C90_same_file_partial (jobs : List Job) (fs0 : FileSys) (hw : WellFormed fs0) (p : Path) (strategy : Strategy)
    (data bytes : List UInt8)
    (hjobs : ∀ j ∈ jobs, j.path = p ∧ (∃ t, 1 ≤ t ∧ j.cmd = Command.compress t strategy) ∧ ReadsAll (aloneEnv j) ∧
      NoFileError j.script)
    (hd : contentAt fs0 p = some data) (h0 : contentAt fs0 (compressName p) = none)
    (hb : encodeBytes euclid data 1 strategy = Res.ok bytes)
    (s : State) (h : Reach jobs fs0 s) (hend : ∀ pc ∈ s.pcs, ∃ o, Finished pc o) (hone : ∃ o, Pc.ended o ∈ s.pcs) :
    contentAt s.fs (compressName p) = some bytes := by
  refine C90_same_bytes_partial jobs fs0 hw _ bytes ?_ h0 ?_ s h hend hone
  · intro j hj
    obtain ⟨h1, ⟨t, -, h2⟩, -⟩ := hjobs j hj
    refine ⟨by rw [Job.out, h2, h1]; rfl, ?_⟩
    rw [h1]
    intro e
    rw [← e, hd] at h0
    simp at h0
  · intro j hj input hi
    obtain ⟨h1, ⟨t, ht, h2⟩, h3, h4⟩ := hjobs j hj
    rw [h1, hd, Option.some.injEq] at hi
    subst hi
    obtain ⟨es, e1, e2, e3⟩ := h3 data
    have e1 : j.reader data = ⟨es, false⟩ := e1
    rw [Job.result, h2]
    exact congrArg Prod.fst (compressData_bytes _ es data bytes t strategy j.script ht h4 e1 e2 e3 hb)

/-! ### What goes wrong -/

/-- **C90**, runs that meet: if two runs with the same output path both pass `exists()` before one of them creates the
output, the output may end up as a mixture: for every `k`, the first `k` bytes of one run, then what the
other run has written from there on, then the rest of the first if it is longer. Both runs end as if nothing had happened. -/
theorem C90_mixture (j1 j2 : Job) (fs0 : FileSys) (in1 in2 : List UInt8) (h1 : contentAt fs0 j1.path = some in1)
    (h2 : contentAt fs0 j2.path = some in2) (hok : j1.openOk = true ∧ j2.openOk = true ∧ j1.createOk = true ∧ j2.createOk = true)
    (ho : j2.out = j1.out) (h0 : contentAt fs0 j1.out = none) (A B : List UInt8) (o1 o2 : Outcome)
    (hA : j1.result in1 = (A, o1)) (hB : j2.result in2 = (B, o2)) (hd1 : o1 ≠ Outcome.div)
    (hd2 : o2 ≠ Outcome.div) (k : Nat) (hk1 : k ≤ A.length) (hk2 : k ≤ B.length) :
    ∃ fs, Reach [j1, j2] fs0 ⟨fs, [Pc.ended o1, Pc.ended o2]⟩ ∧
      contentAt fs j1.out = some (A.take k ++ B.drop k ++ A.drop B.length) := by
  simp only [contentAt, Option.map_eq_some_iff, Option.map_eq_none_iff] at h1 h2 h0
  obtain ⟨i1, h1, rfl⟩ := h1
  obtain ⟨i2, h2, rfl⟩ := h2
  exact reach_mixture j1 j2 fs0 i1 i2 h1 h2 hok.1 hok.2.1 hok.2.2.1 hok.2.2.2 ho h0 A B o1 o2 hA hB hd1 hd2 k hk1 hk2

/-- **C90**, runs that meet: a run may have ended and its output be complete, and then another run replaces it by its own. -/
theorem C90_replaced (j1 j2 : Job) (fs0 : FileSys) (in1 in2 : List UInt8) (h1 : contentAt fs0 j1.path = some in1)
    (h2 : contentAt fs0 j2.path = some in2) (hok : j1.openOk = true ∧ j2.openOk = true ∧ j1.createOk = true ∧ j2.createOk = true)
    (ho : j2.out = j1.out) (h0 : contentAt fs0 j1.out = none) (A B : List UInt8) (o1 o2 : Outcome)
    (hA : j1.result in1 = (A, o1)) (hB : j2.result in2 = (B, o2)) (hd1 : o1 ≠ Outcome.div)
    (hd2 : o2 ≠ Outcome.div) :
    ∃ fs fs', Reach [j1, j2] fs0 ⟨fs, [Pc.ended o1, Pc.checked in2]⟩ ∧ contentAt fs j1.out = some A ∧
      Reach [j1, j2] fs0 ⟨fs', [Pc.ended o1, Pc.ended o2]⟩ ∧ contentAt fs' j1.out = some B := by
  simp only [contentAt, Option.map_eq_some_iff, Option.map_eq_none_iff] at h1 h2 h0
  obtain ⟨i1, h1, rfl⟩ := h1
  obtain ⟨i2, h2, rfl⟩ := h2
  exact reach_emptied j1 j2 fs0 i1 i2 h1 h2 hok.1 hok.2.1 hok.2.2.1 hok.2.2.2 ho h0 A B o1 o2 hA hB hd1 hd2

/-- The file system with the one file `a`, which contains "banana". -/
def oneBanana : FileSys where
  dir := fun q => if q = [97] then some 0 else none
  data := fun i => if i = 0 then banana else []
  next := 1

/-- `ribzip2 compress a`, with a strategy and a disk. -/
def bananaJob (strategy : Strategy) (script : List FEvent) : Job where
  cmd := Command.compress 1 strategy
  path := [97]
  openOk := true
  reader := calmReads.reader
  createOk := true
  script := script

theorem oneBanana_wf : WellFormed oneBanana := by
  intro p i h
  simp only [oneBanana] at h ⊢
  split at h
  · simp only [Option.some.injEq] at h; omega
  · simp at h

def bananaSingle : List UInt8 :=
  [66, 90, 104, 57, 49, 65, 89, 38, 83, 89, 239, 182, 236, 1, 0, 0, 1, 129, 0, 48, 1, 32, 0, 33, 36, 253, 80, 73, 63, 84,
   70, 241, 119, 36, 83, 133, 9, 14, 251, 110, 192, 16]

def bananaThree : List UInt8 :=
  [66, 90, 104, 57, 49, 65, 89, 38, 83, 89, 239, 182, 236, 1, 0, 0, 1, 129, 0, 48, 1, 48, 0, 33, 36, 253, 80, 73, 63, 84,
   18, 79, 213, 17, 188, 93, 201, 20, 225, 66, 67, 190, 219, 176, 4]

theorem bananaSingle_eq : encodeBytes euclid banana 1 Strategy.single = Res.ok bananaSingle := by decide +kernel
theorem bananaThree_eq : encodeBytes euclid banana 1 (Strategy.blockWise 3 0) = Res.ok bananaThree := by decide +kernel

theorem bananaJob_result (strategy : Strategy) (bytes : List UInt8) (h : encodeBytes euclid banana 1 strategy = Res.ok bytes) :
    (bananaJob strategy []).result banana = (bytes, Outcome.ok) := by
  obtain ⟨es, e1, e2, e3⟩ := calmReads_ok.2 banana
  exact compressData_bytes (calmReads.reader banana) es banana bytes 1 strategy [] (Nat.le_refl 1)
    (by intro e he; simp at he) e1 e2 e3 h

/-- **C90** is false: two runs compress "banana" at the same time, one with the strategy `single`, the other with
`k-means --iterations 0 --num-tables 3`; both end with status 0, and the output cannot be decoded. -/
theorem C90_refuted_mixed :
    ∃ fs bytes, Reach [bananaJob Strategy.single [], bananaJob (Strategy.blockWise 3 0) []] oneBanana
        ⟨fs, [Pc.ended Outcome.ok, Pc.ended Outcome.ok]⟩ ∧
      contentAt fs [97, 46, 98, 122, 50] = some bytes ∧ decodeBytes bytes = Res.err := by
  obtain ⟨fs, h1, h2⟩ := C90_mixture (bananaJob Strategy.single []) (bananaJob (Strategy.blockWise 3 0) []) oneBanana banana banana
    rfl rfl ⟨rfl, rfl, rfl, rfl⟩ rfl (by decide +kernel) bananaSingle bananaThree Outcome.ok Outcome.ok
    (bananaJob_result _ _ bananaSingle_eq) (bananaJob_result _ _ bananaThree_eq) (by decide) (by decide) 30 (by decide) (by decide)
  exact ⟨fs, _, h1, h2, by decide +kernel⟩

/-- **C90** is false also if both runs write the same: a run has ended with status 0 and its output is complete; later it
is empty, because another run, which had looked for it earlier, truncated it and then could write nothing. -/
theorem C90_refuted_emptied :
    ∃ fs fs', Reach [bananaJob Strategy.single [], bananaJob Strategy.single [FEvent.fail]] oneBanana
        ⟨fs, [Pc.ended Outcome.ok, Pc.checked banana]⟩ ∧
      contentAt fs [97, 46, 98, 122, 50] = some bananaSingle ∧
      Reach [bananaJob Strategy.single [], bananaJob Strategy.single [FEvent.fail]] oneBanana
        ⟨fs', [Pc.ended Outcome.ok, Pc.ended Outcome.ok]⟩ ∧
      contentAt fs' [97, 46, 98, 122, 50] = some [] := by
  exact C90_replaced (bananaJob Strategy.single []) (bananaJob Strategy.single [FEvent.fail]) oneBanana banana banana
    rfl rfl ⟨rfl, rfl, rfl, rfl⟩ rfl (by decide +kernel) bananaSingle [] Outcome.ok Outcome.ok
    (bananaJob_result _ _ bananaSingle_eq) (by decide +kernel) (by decide) (by decide)

/-- Instances: two `compress` runs on the same file, with different numbers of threads and write calls that are cut short and
interrupted, both pass `exists()` and end, and `C90_same_file_partial` says what they leave. -/
example : ∃ fs, Reach [bananaJob Strategy.single [], { bananaJob Strategy.single [FEvent.accept 3, FEvent.intr] with
        cmd := Command.compress 4 Strategy.single }] oneBanana ⟨fs, [Pc.ended Outcome.ok, Pc.ended Outcome.ok]⟩ ∧
      contentAt fs [97, 46, 98, 122, 50] = some bananaSingle := by
  obtain ⟨es, e1, e2, e3⟩ := calmReads_ok.2 banana
  have hn : NoFileError [FEvent.accept 3, FEvent.intr] := by
    intro e he
    simp only [List.mem_cons, List.not_mem_nil, or_false] at he
    rcases he with rfl | rfl <;> simp
  obtain ⟨fs, h1, -⟩ := C90_mixture (bananaJob Strategy.single [])
    { bananaJob Strategy.single [FEvent.accept 3, FEvent.intr] with cmd := Command.compress 4 Strategy.single } oneBanana banana banana
    rfl rfl ⟨rfl, rfl, rfl, rfl⟩ rfl (by decide +kernel) bananaSingle bananaSingle Outcome.ok Outcome.ok
    (bananaJob_result _ _ bananaSingle_eq)
    (by
      simp only [Job.result, Command.run]
      exact compressData_bytes _ es banana bananaSingle 4 Strategy.single _ (by decide) hn e1 e2 e3 bananaSingle_eq)
    (by decide) (by decide) 7 (by decide) (by decide)
  refine ⟨fs, h1, C90_same_file_partial _ oneBanana oneBanana_wf [97] Strategy.single banana bananaSingle ?_ rfl
    (by decide +kernel) bananaSingle_eq _ h1 ?_ ⟨Outcome.ok, by simp⟩⟩
  · intro j hj
    simp only [List.mem_cons, List.not_mem_nil, or_false] at hj
    rcases hj with rfl | rfl
    · exact ⟨rfl, ⟨1, by decide, rfl⟩, calmReads_ok.2, by intro e he; simp [bananaJob] at he⟩
    · exact ⟨rfl, ⟨4, by decide, rfl⟩, calmReads_ok.2, hn⟩
  · intro pc hpc
    simp only [List.mem_cons, List.not_mem_nil, or_false, or_self] at hpc
    exact ⟨Outcome.ok, by rw [hpc]; exact rfl⟩

/-- Instances: a compression of `a` and a decompression of `b.bz2` at the same time have different outputs, none of
which is an input. -/
example : Unrelated [bananaJob Strategy.single [], { bananaJob Strategy.single [] with cmd := Command.decompress, path := [98, 46, 98, 122, 50] }] ∧
    DifferentOutputs [bananaJob Strategy.single [], { bananaJob Strategy.single [] with cmd := Command.decompress, path := [98, 46, 98, 122, 50] }] := by
  have two : ∀ (P : Job → Job → Prop) (a b : Job), P a b → P b a → ∀ (k l : Nat) (j j' : Job), k ≠ l →
      [a, b][k]? = some j → [a, b][l]? = some j' → P j j' := by
    intro P a b h1 h2 k l j j' hkl hk hl
    match k, l with
    | 0, 0 => exact absurd rfl hkl
    | 1, 1 => exact absurd rfl hkl
    | 0, 1 => simp at hk hl; rw [← hk, ← hl]; exact h1
    | 1, 0 => simp at hk hl; rw [← hk, ← hl]; exact h2
    | k + 2, _ => simp at hk
    | _, l + 2 => simp at hl
  exact ⟨two (fun j j' => j.path ≠ j'.out) _ _ (by decide +kernel) (by decide +kernel),
    two (fun j j' => j.out ≠ j'.out) _ _ (by decide +kernel) (by decide +kernel)⟩

end Ribzip2
