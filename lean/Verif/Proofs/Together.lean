import Verif.Spec.Together
/- Several runs of the program at the same time: what holds in every schedule. -/
namespace Ribzip2.Together
open Spec

/-- The file system after the creation of a new file. -/
def withNew (fs : FileSys) (p : Path) : FileSys where
  dir := fun q => if q = p then some fs.next else fs.dir q
  data := fun j => if j = fs.next then [] else fs.data j
  next := fs.next + 1

/-- The cases of one system call of a run. -/
inductive Call (j : Job) (fs : FileSys) : Pc → FileSys → Pc → Prop where
  | noOpen (h : fs.dir j.path = none ∨ j.openOk = false) : Call j fs Pc.start fs Pc.refused
  | opens (i : Nat) (h : fs.dir j.path = some i) (ho : j.openOk = true) : Call j fs Pc.start fs (Pc.opened (fs.data i))
  | there (x : Nat) (input : List UInt8) (h : fs.dir j.out = some x) : Call j fs (Pc.opened input) fs Pc.refused
  | checks (input : List UInt8) (h : fs.dir j.out = none) : Call j fs (Pc.opened input) fs (Pc.checked input)
  | noCreate (input : List UInt8) (h : j.createOk = false) : Call j fs (Pc.checked input) fs Pc.refused
  | creates (input : List UInt8) (hc : j.createOk = true) (h : fs.dir j.out = none) :
      Call j fs (Pc.checked input) (withNew fs j.out) (Pc.writing fs.next 0 input)
  | truncates (input : List UInt8) (i : Nat) (hc : j.createOk = true) (h : fs.dir j.out = some i) :
      Call j fs (Pc.checked input) (fs.put i []) (Pc.writing i 0 input)
  | writes (i o : Nat) (input : List UInt8) (b : UInt8) (hb : (j.result input).1[o]? = some b) :
      Call j fs (Pc.writing i o input) (fs.put i (writeAt (fs.data i) o b)) (Pc.writing i (o + 1) input)
  | ends (i o : Nat) (input : List UInt8) (hb : (j.result input).1[o]? = none) (hd : (j.result input).2 ≠ Outcome.div) :
      Call j fs (Pc.writing i o input) fs (Pc.ended (j.result input).2)

theorem next_call (j : Job) (fs fs' : FileSys) (pc pc' : Pc) (h : j.next fs pc = some (fs', pc')) :
    Call j fs pc fs' pc' := by
  cases pc with
  | start =>
    simp only [Job.next] at h
    split at h
    · rename_i i hd ho
      simp only [Option.some.injEq, Prod.mk.injEq] at h
      rw [← h.1, ← h.2]
      exact Call.opens i hd ho
    · rename_i hno
      simp only [Option.some.injEq, Prod.mk.injEq] at h
      rw [← h.1, ← h.2]
      refine Call.noOpen ?_
      cases hd : fs.dir j.path with
      | none => exact Or.inl rfl
      | some i =>
        cases ho : j.openOk with
        | false => exact Or.inr rfl
        | true => exact absurd ho (hno i hd)
  | opened input =>
    simp only [Job.next] at h
    split at h
    · rename_i x hd
      simp only [Option.some.injEq, Prod.mk.injEq] at h
      rw [← h.1, ← h.2]
      exact Call.there x input hd
    · rename_i hd
      simp only [Option.some.injEq, Prod.mk.injEq] at h
      rw [← h.1, ← h.2]
      exact Call.checks input hd
  | checked input =>
    simp only [Job.next] at h
    split at h
    · rename_i hc
      simp only [Option.some.injEq, Prod.mk.injEq] at h
      cases hd : fs.dir j.out with
      | none =>
        simp only [FileSys.create, hd] at h
        rw [← h.1, ← h.2]
        exact Call.creates input hc hd
      | some i =>
        simp only [FileSys.create, hd] at h
        rw [← h.1, ← h.2]
        exact Call.truncates input i hc hd
    · rename_i hc
      simp only [Option.some.injEq, Prod.mk.injEq] at h
      rw [← h.1, ← h.2]
      exact Call.noCreate input (by simpa using hc)
  | writing i o input =>
    simp only [Job.next] at h
    split at h
    · rename_i b hb
      simp only [Option.some.injEq, Prod.mk.injEq] at h
      rw [← h.1, ← h.2]
      exact Call.writes i o input b hb
    · rename_i hb
      split at h
      · simp at h
      · rename_i hd
        simp only [Option.some.injEq, Prod.mk.injEq] at h
        rw [← h.1, ← h.2]
        exact Call.ends i o input hb hd
  | refused => simp [Job.next] at h
  | ended o => simp [Job.next] at h

/-- What holds of the file system in every schedule. -/
structure Base (jobs : List Job) (fs0 fs : FileSys) : Prop where
  wf : WellFormed fs
  next : fs0.next ≤ fs.next
  keep : ∀ q i, fs0.dir q = some i → fs.dir q = some i
  data : ∀ i, i < fs0.next → fs.data i = fs0.data i
  new : ∀ q i, fs.dir q = some i → fs0.dir q = some i ∨ (fs0.next ≤ i ∧ fs0.dir q = none ∧ ∃ j ∈ jobs, q = j.out)
  inj : ∀ p q i, fs0.next ≤ i → fs.dir p = some i → fs.dir q = some i → p = q

/-- What holds of a run in every schedule. -/
def PcBase (fs0 fs : FileSys) (j : Job) : Pc → Prop
  | Pc.checked _ => fs0.dir j.out = none
  | Pc.writing i _ _ => fs.dir j.out = some i ∧ fs0.next ≤ i
  | _ => True

theorem pcBase_mono {fs0 fs fs' : FileSys} {j : Job} {pc : Pc} (h : PcBase fs0 fs j pc)
    (hk : ∀ q i, fs.dir q = some i → fs'.dir q = some i) : PcBase fs0 fs' j pc := by
  cases pc <;> simp only [PcBase] at h ⊢
  · exact h
  · exact ⟨hk _ _ h.1, h.2⟩

/-- Paths are never taken away from files. -/
theorem call_keeps {j : Job} {fs fs' : FileSys} {pc pc' : Pc} (h : Call j fs pc fs' pc') :
    ∀ q i, fs.dir q = some i → fs'.dir q = some i := by
  cases h <;> try exact fun _ _ h => h
  rename_i hd
  intro q i hq
  simp only [withNew]
  rw [if_neg (by rintro rfl; rw [hd] at hq; simp at hq)]
  exact hq

theorem base_put {jobs : List Job} {fs0 fs : FileSys} (hb : Base jobs fs0 fs) (i : Nat) (hi : fs0.next ≤ i) (d : List UInt8) :
    Base jobs fs0 (fs.put i d) where
  wf := hb.wf
  next := hb.next
  keep := hb.keep
  data := fun k hk => by
    simp only [FileSys.put]
    rw [if_neg (by omega)]
    exact hb.data k hk
  new := hb.new
  inj := hb.inj

theorem base_new {jobs : List Job} {fs0 fs : FileSys} (hb : Base jobs fs0 fs) (j : Job) (hj : j ∈ jobs)
    (h0 : fs0.dir j.out = none) : Base jobs fs0 (withNew fs j.out) where
  wf := by
    intro q i hq
    simp only [withNew] at hq ⊢
    split at hq
    · simp only [Option.some.injEq] at hq; omega
    · have := hb.wf q i hq; omega
  next := by have := hb.next; simp only [withNew]; omega
  keep := by
    intro q i hq
    simp only [withNew]
    rw [if_neg (by rintro rfl; rw [h0] at hq; simp at hq)]
    exact hb.keep q i hq
  data := by
    intro i hi
    have := hb.next
    simp only [withNew]
    rw [if_neg (by omega)]
    exact hb.data i hi
  new := by
    intro q i hq
    simp only [withNew] at hq
    split at hq
    · rename_i e
      subst e
      simp only [Option.some.injEq] at hq
      have := hb.next
      exact Or.inr ⟨by omega, h0, j, hj, rfl⟩
    · exact hb.new q i hq
  inj := by
    intro p q i hi hp hq
    simp only [withNew] at hp hq
    split at hp <;> split at hq
    · rename_i e1 e2; rw [e1, e2]
    · simp only [Option.some.injEq] at hp
      have := hb.wf q i hq
      omega
    · simp only [Option.some.injEq] at hq
      have := hb.wf p i hp
      omega
    · exact hb.inj p q i hi hp hq

theorem base_call {jobs : List Job} {fs0 fs fs' : FileSys} {j : Job} {pc pc' : Pc} (hj : j ∈ jobs)
    (hb : Base jobs fs0 fs) (hp : PcBase fs0 fs j pc) (h : Call j fs pc fs' pc') :
    Base jobs fs0 fs' ∧ PcBase fs0 fs' j pc' := by
  cases h with
  | noOpen h => exact ⟨hb, trivial⟩
  | opens i h ho => exact ⟨hb, trivial⟩
  | there x input h => exact ⟨hb, trivial⟩
  | checks input h =>
    refine ⟨hb, ?_⟩
    simp only [PcBase]
    cases hz : fs0.dir j.out with
    | none => rfl
    | some i => rw [hb.keep _ _ hz] at h; simp at h
  | noCreate input h => exact ⟨hb, trivial⟩
  | creates input hc h =>
    refine ⟨base_new hb j hj hp, ?_⟩
    have := hb.next
    simp only [PcBase, withNew, if_true, true_and]
    exact this
  | truncates input i hc h =>
    simp only [PcBase] at hp
    have hi : fs0.next ≤ i := by
      rcases hb.new _ _ h with h1 | h1
      · rw [hp] at h1; simp at h1
      · exact h1.1
    exact ⟨base_put hb i hi _, h, hi⟩
  | writes i o input b hb' => exact ⟨base_put hb i hp.2 _, hp⟩
  | ends i o input hb' hd => exact ⟨hb, trivial⟩

/-- What holds in every schedule. -/
def BaseAll (jobs : List Job) (fs0 : FileSys) (s : State) : Prop :=
  s.pcs.length = jobs.length ∧ Base jobs fs0 s.fs ∧
    ∀ (k : Nat) (j : Job) (pc : Pc), jobs[k]? = some j → s.pcs[k]? = some pc → PcBase fs0 s.fs j pc

theorem baseAll_init (jobs : List Job) (fs0 : FileSys) (hw : WellFormed fs0) :
    BaseAll jobs fs0 ⟨fs0, List.replicate jobs.length Pc.start⟩ := by
  refine ⟨by simp, ⟨hw, Nat.le_refl _, fun _ _ h => h, fun _ _ => rfl, fun _ _ h => Or.inl h, ?_⟩, ?_⟩
  · intro p q i hi hp
    have := hw p i hp
    omega
  · intro k j pc hj hpc
    rw [List.getElem?_replicate] at hpc
    split at hpc
    · simp only [Option.some.injEq] at hpc
      rw [← hpc]
      trivial
    · simp at hpc

theorem set_cases {pcs : List Pc} {k l : Nat} {pc pc' : Pc} (h : (pcs.set k pc')[l]? = some pc) :
    (l = k ∧ pc = pc') ∨ (l ≠ k ∧ pcs[l]? = some pc) := by
  rw [List.getElem?_set] at h
  split at h
  · rename_i e
    split at h
    · simp only [Option.some.injEq] at h
      exact Or.inl ⟨e.symm, h.symm⟩
    · simp at h
  · rename_i e
    exact Or.inr ⟨fun h => e h.symm, h⟩

theorem baseAll_step {jobs : List Job} {fs0 : FileSys} {s s' : State} (h : BaseAll jobs fs0 s) (hs : Together.Step jobs s s') :
    BaseAll jobs fs0 s' := by
  obtain ⟨k, j, pc, pc', fs', hj, hpc, hn⟩ := hs
  have hc := next_call j _ _ _ _ hn
  obtain ⟨h1, h2, h3⟩ := h
  obtain ⟨g1, g2⟩ := base_call (List.mem_of_getElem? hj) h2 (h3 k j pc hj hpc) hc
  refine ⟨by simpa using h1, g1, ?_⟩
  intro l j' pc'' hj' hpc'
  rcases set_cases hpc' with ⟨rfl, rfl⟩ | ⟨hne, hl⟩
  · rw [hj, Option.some.injEq] at hj'
    rw [← hj']
    exact g2
  · exact pcBase_mono (h3 l j' pc'' hj' hl) (call_keeps hc)

theorem reach_base {jobs : List Job} {fs0 : FileSys} (hw : WellFormed fs0) {s : State} (h : Reach jobs fs0 s) :
    BaseAll jobs fs0 s := by
  induction h with
  | init => exact baseAll_init jobs fs0 hw
  | step s s' _ hs ih => exact baseAll_step ih hs

end Ribzip2.Together
