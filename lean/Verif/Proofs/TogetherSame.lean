import Verif.Proofs.Together
import Mathlib.Tactic.ByContra
/- Several runs of the program with the same output path. -/
namespace Ribzip2.Together
open Spec

theorem writeAt_length (d : List UInt8) (o : Nat) (b : UInt8) : (writeAt d o b).length = max d.length (o + 1) := by
  simp only [writeAt, List.length_set, List.length_append, List.length_replicate]
  omega

theorem writeAt_same (d : List UInt8) (o : Nat) (b : UInt8) : (writeAt d o b)[o]? = some b := by
  have := writeAt_length d o b
  rw [writeAt, List.getElem?_set_self]
  simp only [List.length_append, List.length_replicate]
  omega

theorem writeAt_other (d : List UInt8) (o x : Nat) (b : UInt8) (hx : x ≠ o) (h : x < d.length) :
    (writeAt d o b)[x]? = d[x]? := by
  rw [writeAt, List.getElem?_set_ne (fun h => hx h.symm), List.getElem?_append_left h]

/-! ### Runs that write the same -/

/-- The run has not lost track of its input. -/
def PcSame (fs0 : FileSys) (B : List UInt8) (j : Job) : Pc → Prop
  | Pc.opened input => ∃ i, fs0.dir j.path = some i ∧ input = fs0.data i
  | Pc.checked input => ∃ i, fs0.dir j.path = some i ∧ input = fs0.data i
  | Pc.writing _ o input => (∃ i, fs0.dir j.path = some i ∧ input = fs0.data i) ∧ o ≤ B.length
  | _ => True

/-- All runs have the output path `q` and write `B`. Every byte is right or will be written once more. -/
structure Same (jobs : List Job) (fs0 : FileSys) (q : Path) (B : List UInt8) (s : State) : Prop where
  pc : ∀ (k : Nat) (j : Job) (pc : Pc), jobs[k]? = some j → s.pcs[k]? = some pc → PcSame fs0 B j pc
  there : ∀ (k : Nat) (o : Outcome), s.pcs[k]? = some (Pc.ended o) → ∃ i, s.fs.dir q = some i
  file : ∀ i, s.fs.dir q = some i → (s.fs.data i).length ≤ B.length ∧ ∀ x, x < B.length →
    (s.fs.data i)[x]? = B[x]? ∨ ∃ (k f o : Nat) (input : List UInt8), s.pcs[k]? = some (Pc.writing f o input) ∧ o ≤ x

theorem same_step {jobs : List Job} {fs0 : FileSys} {q : Path} {B : List UInt8} (hw : WellFormed fs0)
    (hq : ∀ j ∈ jobs, j.out = q) (hp : ∀ j ∈ jobs, j.path ≠ q) 
    (hB : ∀ j ∈ jobs, ∀ i, fs0.dir j.path = some i → (j.result (fs0.data i)).1 = B) {s s' : State}
    (hb : BaseAll jobs fs0 s) (h : Same jobs fs0 q B s) (hs : Together.Step jobs s s') : Same jobs fs0 q B s' := by
  obtain ⟨k, j, pc, pc', fs', hj, hpc, hn⟩ := hs
  have hc := next_call j _ _ _ _ hn
  obtain ⟨hlen, hbase, hpb⟩ := hb
  have hjm := List.mem_of_getElem? hj
  have hk : k < s.pcs.length := (List.getElem?_eq_some_iff.1 hpc).1
  have hgetk : (s.pcs.set k pc')[k]? = some pc' := by simp [hk]
  have hget : ∀ l, l ≠ k → (s.pcs.set k pc')[l]? = s.pcs[l]? := fun l hl => List.getElem?_set_ne (fun h => hl h.symm)
  have hme := h.pc k j pc hj hpc
  have hpcs : PcSame fs0 B j pc' → ∀ (l : Nat) (j' : Job) (pc2 : Pc), jobs[l]? = some j' →
      (s.pcs.set k pc')[l]? = some pc2 → PcSame fs0 B j' pc2 := by
    intro hme' l j' pc2 h1 h2
    rcases set_cases h2 with ⟨rfl, rfl⟩ | ⟨hl, h3⟩
    · rw [hj, Option.some.injEq] at h1
      rw [← h1]; exact hme'
    · exact h.pc l j' pc2 h1 h3
  have hthere : (∀ o, pc' = Pc.ended o → ∃ i, s.fs.dir q = some i) → ∀ (l : Nat) (o : Outcome),
      (s.pcs.set k pc')[l]? = some (Pc.ended o) → ∃ i, fs'.dir q = some i := by
    intro hme' l o h2
    have : ∃ i, s.fs.dir q = some i := by
      rcases set_cases h2 with ⟨rfl, h3⟩ | ⟨hl, h3⟩
      · exact hme' o h3.symm
      · exact h.there l o h3
    obtain ⟨i, hi⟩ := this
    exact ⟨i, call_keeps hc _ _ hi⟩
  -- the file if it is not changed and the run was not writing
  have hfile : fs' = s.fs → (∀ f o input, pc ≠ Pc.writing f o input) → ∀ i, fs'.dir q = some i → (fs'.data i).length ≤ B.length ∧
      ∀ x, x < B.length → (fs'.data i)[x]? = B[x]? ∨ ∃ (k' f o : Nat) (input : List UInt8),
        (s.pcs.set k pc')[k']? = some (Pc.writing f o input) ∧ o ≤ x := by
    rintro rfl hnw i hi
    obtain ⟨h1, h2⟩ := h.file i hi
    refine ⟨h1, fun x hx => ?_⟩
    rcases h2 x hx with h3 | ⟨l, f, o, input, h3, h4⟩
    · exact Or.inl h3
    · refine Or.inr ⟨l, f, o, input, ?_, h4⟩
      rw [hget l ?_]
      · exact h3
      · rintro rfl
        rw [hpc, Option.some.injEq] at h3
        exact hnw f o input h3
  cases hc with
  | noOpen h0 => exact ⟨hpcs trivial, hthere (by simp), hfile rfl (by simp)⟩
  | opens i h0 ho =>
    refine ⟨hpcs ?_, hthere (by simp), hfile rfl (by simp)⟩
    have hz : fs0.dir j.path = some i := by
      rcases hbase.new _ _ h0 with h1 | ⟨-, -, j', h1, h2⟩
      · exact h1
      · rw [hq j' h1] at h2
        exact absurd h2 (hp j hjm)
    exact ⟨i, hz, hbase.data i (hw _ _ hz)⟩
  | there x input h0 => exact ⟨hpcs trivial, hthere (by simp), hfile rfl (by simp)⟩
  | checks input h0 => exact ⟨hpcs hme, hthere (by simp), hfile rfl (by simp)⟩
  | noCreate input h0 => exact ⟨hpcs trivial, hthere (by simp), hfile rfl (by simp)⟩
  | creates input hcr h0 =>
    refine ⟨hpcs ⟨hme, Nat.zero_le _⟩, hthere (by simp), ?_⟩
    intro i hi
    have e : (withNew s.fs j.out).data i = [] := by
      simp only [withNew, hq j hjm, if_true, Option.some.injEq] at hi ⊢
      rw [if_pos hi.symm]
    rw [e]
    exact ⟨by simp, fun x hx => Or.inr ⟨k, _, 0, input, hgetk, Nat.zero_le _⟩⟩
  | truncates input f hcr h0 =>
    refine ⟨hpcs ⟨hme, Nat.zero_le _⟩, hthere (by simp), ?_⟩
    intro i hi
    rw [hq j hjm] at h0
    simp only [FileSys.put] at hi ⊢
    rw [h0, Option.some.injEq] at hi
    rw [if_pos hi.symm]
    exact ⟨by simp, fun x hx => Or.inr ⟨k, _, 0, input, hgetk, Nat.zero_le _⟩⟩
  | writes f o input b hb' =>
    obtain ⟨⟨i0, e1, e2⟩, h5⟩ := hme
    rw [e2, hB j hjm i0 e1] at hb'
    have hlt : o < B.length := (List.getElem?_eq_some_iff.1 hb').1
    refine ⟨hpcs ⟨⟨i0, e1, e2⟩, hlt⟩, hthere (by simp), ?_⟩
    intro i hi
    have hf := (hpb k j _ hj hpc).1
    rw [hq j hjm] at hf
    simp only [FileSys.put] at hi ⊢
    rw [hf, Option.some.injEq] at hi
    subst hi
    rw [if_pos rfl]
    obtain ⟨h1, h2⟩ := h.file f hf
    refine ⟨by rw [writeAt_length]; omega, fun x hx => ?_⟩
    by_cases hxo : x = o
    · subst hxo
      exact Or.inl (by rw [writeAt_same, hb'])
    · rcases h2 x hx with h3 | ⟨l, f', o', input', h3, h4⟩
      · have hxl : x < (s.fs.data f).length := by
          by_contra hge
          rw [List.getElem?_eq_none (by omega), List.getElem?_eq_getElem hx] at h3
          simp at h3
        exact Or.inl (by rw [writeAt_other _ _ _ _ hxo hxl, h3])
      · by_cases hl : l = k
        · subst hl
          rw [hpc, Option.some.injEq, Pc.writing.injEq] at h3
          exact Or.inr ⟨l, f, o + 1, input, hgetk, by omega⟩
        · exact Or.inr ⟨l, f', o', input', by rw [hget l hl]; exact h3, h4⟩
  | ends f o input hb' hd =>
    obtain ⟨⟨i0, e1, e2⟩, h5⟩ := hme
    rw [e2, hB j hjm i0 e1] at hb'
    have hge := List.getElem?_eq_none_iff.1 hb'
    refine ⟨hpcs trivial, hthere ?_, ?_⟩
    · intro _ _
      exact ⟨f, by rw [← hq j hjm]; exact (hpb k j _ hj hpc).1⟩
    · intro i hi
      obtain ⟨h1, h2⟩ := h.file i hi
      refine ⟨h1, fun x hx => ?_⟩
      rcases h2 x hx with h3 | ⟨l, f', o', input', h3, h4⟩
      · exact Or.inl h3
      · refine Or.inr ⟨l, f', o', input', ?_, h4⟩
        rw [hget l ?_]
        · exact h3
        · rintro rfl
          rw [hpc, Option.some.injEq, Pc.writing.injEq] at h3
          omega

theorem reach_same {jobs : List Job} {fs0 : FileSys} {q : Path} {B : List UInt8} (hw : WellFormed fs0)
    (hq : ∀ j ∈ jobs, j.out = q) (hp : ∀ j ∈ jobs, j.path ≠ q) (h0 : fs0.dir q = none)
    (hB : ∀ j ∈ jobs, ∀ i, fs0.dir j.path = some i → (j.result (fs0.data i)).1 = B) {s : State}
    (h : Reach jobs fs0 s) : Same jobs fs0 q B s := by
  induction h with
  | init =>
    have e : ∀ (k : Nat) (pc : Pc), (List.replicate jobs.length Pc.start)[k]? = some pc → pc = Pc.start := by
      intro k pc h
      rw [List.getElem?_replicate] at h
      split at h
      · simpa using h.symm
      · simp at h
    refine ⟨?_, ?_, ?_⟩
    · intro k j pc _ hpc
      rw [e k pc hpc]
      trivial
    · intro k o h
      exact absurd (e k _ h) (by simp)
    · intro i hi
      simp only at hi
      rw [h0] at hi
      simp at hi
  | step s s' h1 hs ih => exact same_step hw hq hp hB (reach_base hw h1) ih hs

/-! ### Two runs that write different things -/

theorem put_put (fs : FileSys) (i : Nat) (a b : List UInt8) : (fs.put i a).put i b = fs.put i b := by
  simp only [FileSys.put, FileSys.mk.injEq, true_and, and_true]
  funext j
  split <;> rfl

theorem writeAt_inside (d : List UInt8) (o : Nat) (b : UInt8) (h : o ≤ d.length) :
    writeAt d o b = d.take o ++ [b] ++ d.drop (o + 1) := by
  apply List.ext_getElem?
  intro x
  by_cases hx : x = o
  · subst hx
    rw [writeAt_same]
    simp [List.getElem?_append, h]
  · by_cases hl : x < d.length
    · rw [writeAt_other d o x b hx hl]
      by_cases hlt : x < o
      · rw [List.append_assoc, List.getElem?_append_left (by rw [List.length_take]; omega), List.getElem?_take_of_lt hlt]
      · rw [List.getElem?_append_right (by simp; omega), List.getElem?_drop]
        congr 1
        simp
        omega
    · rw [List.getElem?_eq_none (by rw [writeAt_length]; omega), List.getElem?_eq_none (by simp; omega)]

/-- A run writes some more bytes, undisturbed. -/
theorem reach_write {jobs : List Job} {fs0 : FileSys} (k : Nat) (j : Job) (hj : jobs[k]? = some j) (i : Nat)
    (input : List UInt8) (bs : List UInt8) :
    ∀ (s : State) (o : Nat) (rest : List UInt8), Reach jobs fs0 s → s.pcs[k]? = some (Pc.writing i o input) →
      (j.result input).1.drop o = bs ++ rest → o ≤ (s.fs.data i).length →
      Reach jobs fs0 ⟨s.fs.put i ((s.fs.data i).take o ++ bs ++ (s.fs.data i).drop (o + bs.length)),
        s.pcs.set k (Pc.writing i (o + bs.length) input)⟩ := by
  induction bs with
  | nil =>
    intro s o rest hr hpc _ ho
    have e1 : s.fs.put i ((s.fs.data i).take o ++ [] ++ (s.fs.data i).drop (o + ([] : List UInt8).length)) = s.fs := by
      simp only [List.append_nil, List.length_nil, Nat.add_zero, List.take_append_drop]
      cases hfs : s.fs with
      | mk dir data next =>
        simp only [FileSys.put, FileSys.mk.injEq, true_and, and_true]
        funext x
        split
        · rename_i e; rw [e]
        · rfl
    have e2 : s.pcs.set k (Pc.writing i (o + ([] : List UInt8).length) input) = s.pcs := by
      apply List.ext_getElem?
      intro l
      rw [List.getElem?_set]
      split
      · rename_i e
        rw [← e, hpc, if_pos (List.getElem?_eq_some_iff.1 hpc).1]
        rfl
      · rfl
    rw [e1, e2]
    exact hr
  | cons b bs ih =>
    intro s o rest hr hpc hd ho
    have hb : (j.result input).1[o]? = some b := by
      have := congrArg (fun l => l[0]?) hd
      simpa [List.getElem?_drop] using this
    have hk : k < s.pcs.length := (List.getElem?_eq_some_iff.1 hpc).1
    have hn : j.next s.fs (Pc.writing i o input) = some (s.fs.put i (writeAt (s.fs.data i) o b), Pc.writing i (o + 1) input) := by
      simp only [Job.next, hb]
    have hr1 := Reach.step s _ hr (Together.Step.step k j _ _ _ hj hpc hn)
    have hlen : (writeAt (s.fs.data i) o b).length = max (s.fs.data i).length (o + 1) := writeAt_length _ _ _
    have hdata : (s.fs.put i (writeAt (s.fs.data i) o b)).data i = writeAt (s.fs.data i) o b := by simp [FileSys.put]
    have h2 := ih ⟨s.fs.put i (writeAt (s.fs.data i) o b), s.pcs.set k (Pc.writing i (o + 1) input)⟩ (o + 1) rest hr1
      (by simp [hk]) (by
        have := congrArg (List.drop 1) hd
        simpa [List.drop_drop] using this) (by simp only [hdata]; omega)
    simp only [hdata, put_put, List.set_set] at h2
    have e : (writeAt (s.fs.data i) o b).take (o + 1) ++ bs ++ (writeAt (s.fs.data i) o b).drop (o + 1 + bs.length)
        = (s.fs.data i).take o ++ b :: bs ++ (s.fs.data i).drop (o + (b :: bs).length) := by
      rw [writeAt_inside _ _ _ ho]
      have ht : ((s.fs.data i).take o).length = o := by rw [List.length_take]; omega
      generalize s.fs.data i = d at ht ho ⊢
      generalize hT : d.take o = t at ht ⊢
      have hl : (t ++ [b]).length = o + 1 := by rw [List.length_append, ht]; rfl
      rw [List.take_left' hl, List.drop_append, List.drop_eq_nil_of_le (by rw [hl]; omega), hl, List.drop_drop,
        List.nil_append]
      simp only [List.append_assoc, List.singleton_append, List.cons_append, List.length_cons]
      rw [show o + 1 + (o + 1 + bs.length - (o + 1)) = o + (bs.length + 1) by omega]
      try rfl
    rw [e] at h2
    have e3 : o + 1 + bs.length = o + (b :: bs).length := by simp; omega
    rw [e3] at h2
    exact h2

/-- Two runs with the same output path pass `exists()` and then create the output one after the other, the first run
having written a part of its bytes, or nothing, in between. -/
theorem reach_both (j1 j2 : Job) (fs0 : FileSys) (i1 i2 : Nat) (h1 : fs0.dir j1.path = some i1)
    (h2 : fs0.dir j2.path = some i2) (ho1 : j1.openOk = true) (ho2 : j2.openOk = true) (ho : j2.out = j1.out)
    (h0 : fs0.dir j1.out = none) :
    Reach [j1, j2] fs0 ⟨fs0, [Pc.checked (fs0.data i1), Pc.checked (fs0.data i2)]⟩ := by
  have r0 : Reach [j1, j2] fs0 ⟨fs0, [Pc.start, Pc.start]⟩ := Reach.init
  have r1 := Reach.step _ _ r0 (Together.Step.step 0 j1 Pc.start (Pc.opened (fs0.data i1)) fs0 rfl rfl (by
    simp only [Job.next, h1, ho1]))
  have r2 := Reach.step _ _ r1 (Together.Step.step 1 j2 Pc.start (Pc.opened (fs0.data i2)) fs0 rfl rfl (by
    simp only [Job.next, h2, ho2]))
  have r3 := Reach.step _ _ r2 (Together.Step.step 0 j1 (Pc.opened (fs0.data i1)) (Pc.checked (fs0.data i1)) fs0 rfl rfl (by
    simp only [Job.next, h0]))
  have r4 := Reach.step _ _ r3 (Together.Step.step 1 j2 (Pc.opened (fs0.data i2)) (Pc.checked (fs0.data i2)) fs0 rfl rfl (by
    simp only [Job.next, ho, h0]))
  exact r4

theorem reach_create1 (j1 j2 : Job) (fs0 fs : FileSys) (input : List UInt8) (pc : Pc) (hc : j1.createOk = true)
    (h0 : fs.dir j1.out = none) (h : Reach [j1, j2] fs0 ⟨fs, [Pc.checked input, pc]⟩) :
    Reach [j1, j2] fs0 ⟨withNew fs j1.out, [Pc.writing fs.next 0 input, pc]⟩ :=
  Reach.step _ _ h (Together.Step.step 0 j1 (Pc.checked input) (Pc.writing fs.next 0 input) (withNew fs j1.out) rfl rfl (by
    simp only [Job.next, hc, if_true, FileSys.create, h0, withNew]))

theorem reach_create2 (j1 j2 : Job) (fs0 fs : FileSys) (input : List UInt8) (pc : Pc) (i : Nat) (hc : j2.createOk = true)
    (h0 : fs.dir j2.out = some i) (h : Reach [j1, j2] fs0 ⟨fs, [pc, Pc.checked input]⟩) :
    Reach [j1, j2] fs0 ⟨fs.put i [], [pc, Pc.writing i 0 input]⟩ :=
  Reach.step _ _ h (Together.Step.step 1 j2 (Pc.checked input) (Pc.writing i 0 input) (fs.put i []) rfl rfl (by
    simp only [Job.next, hc, if_true, FileSys.create, h0, FileSys.put]))

theorem next_ends (j : Job) (fs : FileSys) (i o : Nat) (input : List UInt8) (h : (j.result input).1.length ≤ o)
    (hd : (j.result input).2 ≠ Outcome.div) :
    j.next fs (Pc.writing i o input) = some (fs, Pc.ended (j.result input).2) := by
  simp only [Job.next, List.getElem?_eq_none h]

theorem reach_mixture (j1 j2 : Job) (fs0 : FileSys) (i1 i2 : Nat) (h1 : fs0.dir j1.path = some i1)
    (h2 : fs0.dir j2.path = some i2) (ho1 : j1.openOk = true) (ho2 : j2.openOk = true) (hc1 : j1.createOk = true)
    (hc2 : j2.createOk = true) (ho : j2.out = j1.out) (h0 : fs0.dir j1.out = none) (A B : List UInt8) (o1 o2 : Outcome)
    (hA : j1.result (fs0.data i1) = (A, o1)) (hB : j2.result (fs0.data i2) = (B, o2)) (hd1 : o1 ≠ Outcome.div)
    (hd2 : o2 ≠ Outcome.div) (k : Nat) (hk1 : k ≤ A.length) (hk2 : k ≤ B.length) :
    ∃ fs, Reach [j1, j2] fs0 ⟨fs, [Pc.ended o1, Pc.ended o2]⟩ ∧
      contentAt fs j1.out = some (A.take k ++ B.drop k ++ A.drop B.length) := by
  have r1 := reach_create1 j1 j2 fs0 fs0 _ _ hc1 h0 (reach_both j1 j2 fs0 i1 i2 h1 h2 ho1 ho2 ho h0)
  have hdir : (withNew fs0 j1.out).dir j2.out = some fs0.next := by simp [withNew, ho]
  have r2 := reach_create2 j1 j2 fs0 _ _ _ fs0.next hc2 hdir r1
  have hA1 : (j1.result (fs0.data i1)).1 = A := by rw [hA]
  have hB1 : (j2.result (fs0.data i2)).1 = B := by rw [hB]
  generalize hf : withNew fs0 j1.out = f at r2 hdir
  generalize fs0.next = n at r2 hdir
  have hput : ∀ d : List UInt8, (f.put n d).data n = d := by intro d; simp [FileSys.put]
  -- the second run writes `k` bytes
  have r3 := reach_write 1 j2 rfl n (fs0.data i2) (B.take k) _ 0 (B.drop k) r2 rfl (by
    rw [hB1, List.drop_zero, List.take_append_drop]) (Nat.zero_le _)
  simp only [hput, put_put, List.take_nil, List.drop_nil, List.append_nil, List.nil_append, Nat.zero_add,
    List.set_cons_succ, List.set_cons_zero] at r3
  have hlk : (B.take k).length = k := by rw [List.length_take]; omega
  rw [hlk] at r3
  -- the first run writes all
  have r4 := reach_write 0 j1 rfl n (fs0.data i1) A _ 0 [] r3 rfl (by rw [hA1, List.drop_zero, List.append_nil]) (Nat.zero_le _)
  simp only [hput, put_put, List.take_zero, List.nil_append, Nat.zero_add, List.set_cons_zero] at r4
  rw [List.drop_eq_nil_of_le (by rw [hlk]; exact hk1), List.append_nil] at r4
  -- the second run writes the rest
  have r5 := reach_write 1 j2 rfl n (fs0.data i2) (B.drop k) _ k [] r4 rfl (by rw [hB1, List.append_nil]) (by
    simp only [hput]; exact hk1)
  simp only [hput, put_put, List.set_cons_succ, List.set_cons_zero] at r5
  have hlen : k + (B.drop k).length = B.length := by rw [List.length_drop]; omega
  rw [hlen] at r5
  have r6 := Reach.step _ _ r5 (Together.Step.step 0 j1 _ _ _ rfl rfl
    (next_ends j1 _ n A.length (fs0.data i1) (by rw [hA1]; exact Nat.le_refl _) (by rw [hA]; exact hd1)))
  have r7 := Reach.step _ _ r6 (Together.Step.step 1 j2 _ _ _ rfl rfl
    (next_ends j2 _ n B.length (fs0.data i2) (by rw [hB1]; exact Nat.le_refl _) (by rw [hB]; exact hd2)))
  simp only [List.set_cons_succ, List.set_cons_zero, hA, hB] at r7
  refine ⟨_, r7, ?_⟩
  rw [contentAt, show (f.put n (A.take k ++ B.drop k ++ A.drop B.length)).dir j1.out = some n by rw [← ho]; exact hdir,
    Option.map_some, hput]

theorem reach_emptied (j1 j2 : Job) (fs0 : FileSys) (i1 i2 : Nat) (h1 : fs0.dir j1.path = some i1)
    (h2 : fs0.dir j2.path = some i2) (ho1 : j1.openOk = true) (ho2 : j2.openOk = true) (hc1 : j1.createOk = true)
    (hc2 : j2.createOk = true) (ho : j2.out = j1.out) (h0 : fs0.dir j1.out = none) (A B : List UInt8) (o1 o2 : Outcome)
    (hA : j1.result (fs0.data i1) = (A, o1)) (hB : j2.result (fs0.data i2) = (B, o2)) (hd1 : o1 ≠ Outcome.div)
    (hd2 : o2 ≠ Outcome.div) :
    ∃ fs fs', Reach [j1, j2] fs0 ⟨fs, [Pc.ended o1, Pc.checked (fs0.data i2)]⟩ ∧ contentAt fs j1.out = some A ∧
      Reach [j1, j2] fs0 ⟨fs', [Pc.ended o1, Pc.ended o2]⟩ ∧ contentAt fs' j1.out = some B := by
  have r1 := reach_create1 j1 j2 fs0 fs0 _ _ hc1 h0 (reach_both j1 j2 fs0 i1 i2 h1 h2 ho1 ho2 ho h0)
  have hdir : (withNew fs0 j1.out).dir j1.out = some fs0.next := by simp [withNew]
  have hA1 : (j1.result (fs0.data i1)).1 = A := by rw [hA]
  have hB1 : (j2.result (fs0.data i2)).1 = B := by rw [hB]
  have hnil : (withNew fs0 j1.out).data fs0.next = [] := by simp [withNew]
  generalize hf : withNew fs0 j1.out = f at r1 hdir hnil
  generalize fs0.next = n at r1 hdir hnil
  have hput : ∀ d : List UInt8, (f.put n d).data n = d := by intro d; simp [FileSys.put]
  have r2 := reach_write 0 j1 rfl n (fs0.data i1) A _ 0 [] r1 rfl (by rw [hA1, List.drop_zero, List.append_nil]) (Nat.zero_le _)
  simp only [hnil, List.take_nil, List.drop_nil, List.append_nil, List.nil_append, Nat.zero_add, List.set_cons_zero] at r2
  have r3 := Reach.step _ _ r2 (Together.Step.step 0 j1 _ _ _ rfl rfl
    (next_ends j1 _ n A.length (fs0.data i1) (by rw [hA1]; exact Nat.le_refl _) (by rw [hA]; exact hd1)))
  simp only [List.set_cons_zero, hA] at r3
  have hdir2 : ∀ d : List UInt8, (f.put n d).dir j1.out = some n := fun _ => hdir
  have r4 := reach_create2 j1 j2 fs0 _ _ _ n hc2 (by rw [ho]; exact hdir2 A) r3
  rw [put_put] at r4
  have r5 := reach_write 1 j2 rfl n (fs0.data i2) B _ 0 [] r4 rfl (by rw [hB1, List.drop_zero, List.append_nil]) (Nat.zero_le _)
  simp only [hput, put_put, List.take_nil, List.drop_nil, List.append_nil, List.nil_append, Nat.zero_add,
    List.set_cons_succ, List.set_cons_zero] at r5
  have r6 := Reach.step _ _ r5 (Together.Step.step 1 j2 _ _ _ rfl rfl
    (next_ends j2 _ n B.length (fs0.data i2) (by rw [hB1]; exact Nat.le_refl _) (by rw [hB]; exact hd2)))
  simp only [List.set_cons_succ, List.set_cons_zero, hB] at r6
  refine ⟨_, _, r3, ?_, r6, ?_⟩
  · rw [contentAt, hdir2, Option.map_some, hput]
  · rw [contentAt, hdir2, Option.map_some, hput]

end Ribzip2.Together
