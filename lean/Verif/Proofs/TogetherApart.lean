import Verif.Proofs.Together
/- Several runs of the program that do not meet between `exists()` and `File::create`. -/
namespace Ribzip2.Together
open Spec

/-- The content of the input is that at the beginning. -/
def Input (fs0 : FileSys) (j : Job) (input : List UInt8) : Prop :=
  j.openOk = true ∧ ∃ i, fs0.dir j.path = some i ∧ input = fs0.data i

/-- What holds of a run if the runs keep apart. -/
def PcApart (fs0 fs : FileSys) (j : Job) : Pc → Prop
  | Pc.start => True
  | Pc.opened input => Input fs0 j input
  | Pc.checked input => Input fs0 j input ∧ fs.dir j.out = none
  | Pc.writing i o input => Input fs0 j input ∧ j.createOk = true ∧ fs.dir j.out = some i ∧ fs0.next ≤ i ∧
      fs0.dir j.out = none ∧ o ≤ (j.result input).1.length ∧ fs.data i = (j.result input).1.take o
  | Pc.refused => fs0.dir j.path = none ∨ j.openOk = false ∨ j.createOk = false ∨ ∃ x, fs.dir j.out = some x
  | Pc.ended o => ∃ i input, Input fs0 j input ∧ j.createOk = true ∧ fs.dir j.out = some i ∧ fs0.next ≤ i ∧
      fs0.dir j.out = none ∧ fs.data i = (j.result input).1 ∧ o = (j.result input).2

/-- The run has a claim to its output. -/
def Claims : Pc → Prop
  | Pc.checked _ => True
  | Pc.writing _ _ _ => True
  | Pc.ended _ => True
  | _ => False

/-- The run has created its output. -/
def Owns : Pc → Prop
  | Pc.writing _ _ _ => True
  | Pc.ended _ => True
  | _ => False

structure ApartAll (jobs : List Job) (fs0 : FileSys) (s : State) : Prop where
  pc : ∀ (k : Nat) (j : Job) (pc : Pc), jobs[k]? = some j → s.pcs[k]? = some pc → PcApart fs0 s.fs j pc
  one : ∀ (k l : Nat) (j j' : Job) (a b : Pc), k ≠ l → jobs[k]? = some j → jobs[l]? = some j' → j.out = j'.out →
    s.pcs[k]? = some a → s.pcs[l]? = some b → Claims a → ¬ Claims b
  origin : ∀ q, s.fs.dir q = fs0.dir q ∨ ∃ (k : Nat) (j : Job) (pc : Pc), jobs[k]? = some j ∧ s.pcs[k]? = some pc ∧ j.out = q ∧ Owns pc

theorem writeAt_end (d : List UInt8) (b : UInt8) : writeAt d d.length b = d ++ [b] := by
  simp [writeAt, List.set_append]

theorem take_succ_getElem? {l : List UInt8} {o : Nat} {b : UInt8} (h : l[o]? = some b) : l.take (o + 1) = l.take o ++ [b] := by
  rw [List.take_add_one, h]
  rfl

/-- A run that has a claim to another path is not affected by a change of a file that is not its output. -/
theorem pcApart_put {fs0 fs : FileSys} {j : Job} {pc : Pc} (h : PcApart fs0 fs j pc) (i : Nat) (d : List UInt8)
    (hi : ∀ x, Owns pc → fs.dir j.out = some x → x ≠ i) : PcApart fs0 (fs.put i d) j pc := by
  cases pc <;> simp only [PcApart, FileSys.put] at h ⊢ <;> try exact h
  · obtain ⟨h1, h2, h3, h4, h5, h6, h7⟩ := h
    refine ⟨h1, h2, h3, h4, h5, h6, ?_⟩
    rw [if_neg (hi _ trivial h3)]
    exact h7
  · obtain ⟨x, input, h1, h2, h3, h4, h5, h6, h7⟩ := h
    refine ⟨x, input, h1, h2, h3, h4, h5, ?_, h7⟩
    rw [if_neg (hi _ trivial h3)]
    exact h6

theorem pcApart_new {fs0 fs : FileSys} {j : Job} {pc : Pc} (p : Path) (hw : WellFormed fs) (hp : fs.dir p = none)
    (h : PcApart fs0 fs j pc) (hc : Claims pc → j.out ≠ p) : PcApart fs0 (withNew fs p) j pc := by
  have keep : ∀ q x, fs.dir q = some x → (withNew fs p).dir q = some x ∧ (withNew fs p).data x = fs.data x := by
    intro q x hq
    have := hw q x hq
    simp only [withNew]
    rw [if_neg (by rintro rfl; rw [hp] at hq; simp at hq), if_neg (by omega)]
    exact ⟨hq, rfl⟩
  cases pc <;> simp only [PcApart] at h ⊢ <;> try exact h
  · refine ⟨h.1, ?_⟩
    simp only [withNew]
    rw [if_neg (hc trivial)]
    exact h.2
  · obtain ⟨h1, h2, h3, h4, h5, h6, h7⟩ := h
    obtain ⟨k1, k2⟩ := keep _ _ h3
    exact ⟨h1, h2, k1, h4, h5, h6, by rw [k2]; exact h7⟩
  · rcases h with h | h | h | ⟨x, h⟩
    · exact Or.inl h
    · exact Or.inr (Or.inl h)
    · exact Or.inr (Or.inr (Or.inl h))
    · exact Or.inr (Or.inr (Or.inr ⟨x, (keep _ _ h).1⟩))
  · obtain ⟨x, input, h1, h2, h3, h4, h5, h6, h7⟩ := h
    obtain ⟨k1, k2⟩ := keep _ _ h3
    exact ⟨x, input, h1, h2, k1, h4, h5, by rw [k2]; exact h6, h7⟩

theorem apart_dir {fs0 fs : FileSys} {j : Job} {pc : Pc} (h : PcApart fs0 fs j pc) (ho : Owns pc) :
    ∃ i, fs.dir j.out = some i ∧ fs0.next ≤ i := by
  cases pc <;> simp only [Owns] at ho
  · exact ⟨_, h.2.2.1, h.2.2.2.1⟩
  · obtain ⟨x, input, h1, h2, h3, h4, -⟩ := h
    exact ⟨x, h3, h4⟩

theorem owns_claims {pc : Pc} (h : Owns pc) : Claims pc := by cases pc <;> trivial

theorem claims_cases {pc : Pc} (h : Claims pc) : (∃ input, pc = Pc.checked input) ∨ Owns pc := by
  cases pc with
  | checked i => exact Or.inl ⟨i, rfl⟩
  | writing a b c => exact Or.inr trivial
  | ended o => exact Or.inr trivial
  | start => exact absurd h (by simp [Claims])
  | opened i => exact absurd h (by simp [Claims])
  | refused => exact absurd h (by simp [Claims])

theorem apartAll_step {jobs : List Job} {fs0 : FileSys} (hw : WellFormed fs0) (hin : Unrelated jobs) {s s' : State}
    (hb : BaseAll jobs fs0 s) (h : ApartAll jobs fs0 s) (hs : Together.Step jobs s s') (hap : Apart jobs s') :
    ApartAll jobs fs0 s' := by
  obtain ⟨k, j, pc, pc', fs', hj, hpc, hn⟩ := hs
  have hc := next_call j _ _ _ _ hn
  obtain ⟨hlen, hbase, hpb⟩ := hb
  have hk : k < s.pcs.length := (List.getElem?_eq_some_iff.1 hpc).1
  have hgetk : (s.pcs.set k pc')[k]? = some pc' := by simp [hk]
  have hget : ∀ l, l ≠ k → (s.pcs.set k pc')[l]? = s.pcs[l]? := fun l hl => List.getElem?_set_ne (fun h => hl h.symm)
  have hme := h.pc k j pc hj hpc
  -- the uniqueness of claims is kept if the run makes no new claim
  have hone : (Claims pc' → Claims pc) → ∀ (l m : Nat) (j1 j2 : Job) (a b : Pc), l ≠ m → jobs[l]? = some j1 →
      jobs[m]? = some j2 → j1.out = j2.out → (s.pcs.set k pc')[l]? = some a → (s.pcs.set k pc')[m]? = some b → Claims a →
      ¬ Claims b := by
    intro hcl l m j1 j2 a b hlm h1 h2 ho ha hb' hca hcb
    rcases set_cases ha with ⟨rfl, rfl⟩ | ⟨hl, hla⟩
    · rcases set_cases hb' with ⟨rfl, -⟩ | ⟨hm, hmb⟩
      · exact hlm rfl
      · exact h.one l m j1 j2 pc b hlm h1 h2 ho hpc hmb (hcl hca) hcb
    · rcases set_cases hb' with ⟨rfl, rfl⟩ | ⟨hm, hmb⟩
      · exact h.one l m j1 j2 a pc hlm h1 h2 ho hla hpc hca (hcl hcb)
      · exact h.one l m j1 j2 a b hlm h1 h2 ho hla hmb hca hcb
  -- the origin of the paths if none is made
  have horig : (Owns pc → Owns pc') → s.fs.dir = fs'.dir → ∀ q, fs'.dir q = fs0.dir q ∨ ∃ (k' : Nat) (j' : Job) (pc'' : Pc),
      jobs[k']? = some j' ∧ (s.pcs.set k pc')[k']? = some pc'' ∧ j'.out = q ∧ Owns pc'' := by
    intro how hd q
    rw [← hd]
    rcases h.origin q with h1 | ⟨l, j', pc2, h1, h2, h3, h4⟩
    · exact Or.inl h1
    · by_cases hl : l = k
      · subst hl
        rw [hpc, Option.some.injEq] at h2
        subst h2
        exact Or.inr ⟨l, j', pc', h1, hgetk, h3, how h4⟩
      · exact Or.inr ⟨l, j', pc2, h1, by rw [hget l hl]; exact h2, h3, h4⟩
  -- the invariant of the runs
  have hpcs : PcApart fs0 fs' j pc' → (∀ (l : Nat) (j' : Job) (pc2 : Pc), l ≠ k → jobs[l]? = some j' → s.pcs[l]? = some pc2 →
      PcApart fs0 s.fs j' pc2 → PcApart fs0 fs' j' pc2) →
      ∀ (l : Nat) (j' : Job) (pc2 : Pc), jobs[l]? = some j' → (s.pcs.set k pc')[l]? = some pc2 → PcApart fs0 fs' j' pc2 := by
    intro hme' hothers l j' pc2 h1 h2
    rcases set_cases h2 with ⟨rfl, rfl⟩ | ⟨hl, h3⟩
    · rw [hj, Option.some.injEq] at h1
      rw [← h1]; exact hme'
    · exact hothers l j' pc2 hl h1 h3 (h.pc l j' pc2 h1 h3)
  cases hc with
  | noOpen h0 =>
    refine ⟨hpcs ?_ (fun _ _ _ _ _ _ h => h), hone (fun h => h.elim), horig (fun h => h.elim) rfl⟩
    rcases h0 with h0 | h0
    · left
      cases hz : fs0.dir j.path with
      | none => rfl
      | some i => rw [hbase.keep _ _ hz] at h0; simp at h0
    · exact Or.inr (Or.inl h0)
  | opens i h0 ho =>
    refine ⟨hpcs ?_ (fun _ _ _ _ _ _ h => h), hone (fun h => h.elim), horig (fun h => h.elim) rfl⟩
    have hz : fs0.dir j.path = some i := by
      rcases h.origin j.path with h1 | ⟨l, j', pc2, h1, h2, h3, h4⟩
      · rw [← h1]; exact h0
      · exfalso
        by_cases hl : l = k
        · subst hl
          rw [hpc, Option.some.injEq] at h2
          subst h2
          exact h4
        · exact hin k l j j' (fun h => hl h.symm) hj h1 h3.symm
    refine ⟨ho, i, hz, ?_⟩
    -- the content of the input has not changed
    exact hbase.data i (hw _ _ hz)
  | there x input h0 =>
    exact ⟨hpcs (Or.inr (Or.inr (Or.inr ⟨x, h0⟩))) (fun _ _ _ _ _ _ h => h), hone (fun h => h.elim),
      horig (fun h => h.elim) rfl⟩
  | checks input h0 =>
    refine ⟨hpcs ⟨hme, h0⟩ (fun _ _ _ _ _ _ h => h), ?_, horig (fun h => h.elim) rfl⟩
    intro l m j1 j2 a b hlm h1 h2 ho ha hb' hca hcb
    have other : ∀ (m : Nat) (j2 : Job) (b : Pc), m ≠ k → jobs[m]? = some j2 → j2.out = j.out → s.pcs[m]? = some b →
        ¬ Claims b := by
      intro m j2 b hm h2 ho hmb hcb
      rcases claims_cases hcb with ⟨i2, rfl⟩ | how
      · exact hap k m j j2 input i2 (fun h => hm h.symm) hj h2 ho.symm hgetk (by rw [hget m hm]; exact hmb)
      · obtain ⟨i, hi, -⟩ := apart_dir (h.pc m j2 b h2 hmb) how
        rw [ho, h0] at hi
        simp at hi
    rcases set_cases ha with ⟨rfl, rfl⟩ | ⟨hl, hla⟩
    · rcases set_cases hb' with ⟨rfl, -⟩ | ⟨hm, hmb⟩
      · exact hlm rfl
      · rw [hj, Option.some.injEq] at h1
        subst h1
        exact other m j2 b hm h2 ho.symm hmb hcb
    · rcases set_cases hb' with ⟨rfl, rfl⟩ | ⟨hm, hmb⟩
      · rw [hj, Option.some.injEq] at h2
        subst h2
        exact other l j1 a hl h1 ho hla hca
      · exact h.one l m j1 j2 a b hlm h1 h2 ho hla hmb hca hcb
  | noCreate input h0 =>
    exact ⟨hpcs (Or.inr (Or.inr (Or.inl h0))) (fun _ _ _ _ _ _ h => h), hone (fun h => h.elim),
      horig (fun h => h.elim) rfl⟩
  | creates input hcr h0 =>
    refine ⟨hpcs ?_ ?_, hone (fun _ => trivial), ?_⟩
    · have hn := hbase.next
      refine ⟨hme.1, hcr, by simp [withNew], hn, hpb k j _ hj hpc, Nat.zero_le _, by simp [withNew]⟩
    · intro l j' pc2 hl h1 h2 h3
      refine pcApart_new _ hbase.wf h0 h3 ?_
      intro hcl ho
      exact h.one k l j j' _ pc2 (fun h => hl h.symm) hj h1 ho.symm hpc h2 trivial hcl
    · intro q
      by_cases hq : q = j.out
      · exact Or.inr ⟨k, j, _, hj, hgetk, hq.symm, trivial⟩
      · rcases h.origin q with h1 | ⟨l, j', pc2, h1, h2, h3, h4⟩
        · left
          simp only [withNew]
          rw [if_neg hq]
          exact h1
        · refine Or.inr ⟨l, j', pc2, h1, ?_, h3, h4⟩
          rw [hget l ?_]
          · exact h2
          · rintro rfl
            rw [hpc, Option.some.injEq] at h2
            subst h2
            exact h4
  | truncates input i hcr h0 =>
    rw [hme.2] at h0
    simp at h0
  | writes i o input b hb' =>
    obtain ⟨h1, h2, h3, h4, h5, h6, h7⟩ := hme
    have hlt : o < (j.result input).1.length := (List.getElem?_eq_some_iff.1 hb').1
    refine ⟨hpcs ⟨h1, h2, h3, h4, h5, hlt, ?_⟩ ?_, hone (fun _ => trivial), horig (fun _ => trivial) rfl⟩
    · simp only [FileSys.put, if_true]
      rw [h7, take_succ_getElem? hb']
      have hl : ((j.result input).1.take o).length = o := by rw [List.length_take]; omega
      have e := writeAt_end ((j.result input).1.take o) b
      rw [hl] at e
      exact e
    · intro l j' pc2 hl g1 g2 g3
      refine pcApart_put g3 i _ ?_
      rintro x how hx rfl
      obtain ⟨i', e1, e2⟩ := apart_dir g3 how
      have := hbase.inj _ _ _ h4 h3 hx
      exact h.one k l j j' _ pc2 (fun h => hl h.symm) hj g1 this hpc g2 trivial (owns_claims how)
  | ends i o input hb' hd =>
    obtain ⟨h1, h2, h3, h4, h5, h6, h7⟩ := hme
    refine ⟨hpcs ⟨i, input, h1, h2, h3, h4, h5, ?_, rfl⟩ (fun _ _ _ _ _ _ h => h), hone (fun _ => trivial),
      horig (fun _ => trivial) rfl⟩
    rw [h7]
    have := List.getElem?_eq_none_iff.1 hb'
    exact List.take_of_length_le this

theorem reachApart_reach {jobs : List Job} {fs0 : FileSys} {s : State} (h : ReachApart jobs fs0 s) : Reach jobs fs0 s := by
  induction h with
  | init => exact Reach.init
  | step s s' _ hs _ ih => exact Reach.step s s' ih hs

theorem reachApart_inv {jobs : List Job} {fs0 : FileSys} (hw : WellFormed fs0) (hin : Unrelated jobs) {s : State}
    (h : ReachApart jobs fs0 s) : ApartAll jobs fs0 s := by
  induction h with
  | init =>
    have e : ∀ (k : Nat) (pc : Pc), (List.replicate jobs.length Pc.start)[k]? = some pc → pc = Pc.start := by
      intro k pc h
      rw [List.getElem?_replicate] at h
      split at h
      · simpa using h.symm
      · simp at h
    refine ⟨?_, ?_, fun q => Or.inl rfl⟩
    · intro k j pc _ hpc
      rw [e k pc hpc]
      trivial
    · intro k l j j' a b _ _ _ _ ha _ hc
      rw [e k a ha] at hc
      exact hc.elim
  | step s s' h1 hs hap ih => exact apartAll_step hw hin (reach_base hw (reachApart_reach h1)) ih hs hap

end Ribzip2.Together
