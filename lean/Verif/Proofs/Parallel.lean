import Verif.Proofs.Killed
/- Executions in which all workers compress at the same time. -/
namespace Ribzip2
open Spec

def queuedW (b : List UInt8) : WorkerState := ⟨[workOf b], none, [], true, true⟩
def busyW (b : List UInt8) : WorkerState := ⟨[], some (workOf b), [], true, true⟩
def readyW (bo : List UInt8 × List Bit) : WorkerState := ⟨[], none, [(bo.2, (workOf bo.1).crc)], true, true⟩

/-- The main thread sends the next `k` blocks. -/
theorem send_all (gen : Work → Res (List Bit)) (bs : List (List UInt8)) (rest : List (List UInt8)) (k i : Nat)
    (s : Sys) (hp : s.pc = MainPc.sending i) (hes : Steady s.events)
    (hb : blocksOf (scriptBytes s.events) = bs ++ rest) (pre : List WorkerState) (hpre : pre.length = i)
    (hw : s.workers = pre ++ List.replicate (bs.length + k) WorkerState.spawn) (hf : s.fin = false) :
    ∃ s', Reach gen false s s' ∧ s'.pc = MainPc.sending (i + bs.length) ∧ Steady s'.events ∧
      blocksOf (scriptBytes s'.events) = rest ∧ s'.workers = pre ++ bs.map queuedW ++ List.replicate k WorkerState.spawn ∧ s'.bw = s.bw ∧
      (rest ≠ [] → s'.fin = false) := by
  induction bs generalizing i s pre with
  | nil =>
    exact ⟨s, Reach.init, by simpa using hp, hes, by simpa using hb, by simpa using hw, rfl, fun _ => hf⟩
  | cons b bs ih =>
    obtain ⟨pc, events, fin, bw, crc, workers⟩ := s
    simp only at hp hes hb hw hf
    subst hp hf
    have hne : scriptBytes events ≠ [] := by
      intro h
      rw [h, blocksOf_nil] at hb
      simp at hb
    obtain ⟨es', e1, e2, e3⟩ := nextBlock_steady events hes
    rw [if_neg hne] at e1
    rw [blocksOf_cons _ hne, ← e3, List.cons_append, List.cons.injEq] at hb
    obtain ⟨hb1, hb2⟩ := hb
    rw [hb1] at e1
    have hi : workers[i]? = some WorkerState.spawn := by
      rw [hw, List.getElem?_append_right (by omega), hpre]
      simp [show bs.length + 1 + k = bs.length + k + 1 by omega, List.replicate_succ]
    have hstep : mainStep false ⟨MainPc.sending i, events, false, bw, crc, workers⟩
        = some ⟨MainPc.sending (i + 1), es', (cut (scriptBytes events)).2, bw, crc, pre ++ [queuedW b] ++ List.replicate (bs.length + k) WorkerState.spawn⟩ := by
      simp only [mainStep, mainSend, hi, e1, sendWork, WorkerState.spawn, if_true]
      rw [hw, List.set_append_right _ _ (by omega), hpre]
      simp [queuedW, workOf, List.replicate_succ, WorkerState.spawn, show bs.length + 1 + k = bs.length + k + 1 by omega]
    by_cases hlast : (cut (scriptBytes events)).2 = true
    · -- the data has come to its end
      have hd := (cut_le (scriptBytes events)).2 hlast
      rw [e3, hd, List.drop_length, blocksOf_nil] at hb2
      obtain ⟨rfl, rfl⟩ := List.append_eq_nil_iff.1 hb2.symm
      refine ⟨_, Reach.step _ _ Reach.init (Step.main _ _ hstep), rfl, e2, ?_, ?_, rfl, by simp⟩
      · rw [e3, hd, List.drop_length, blocksOf_nil]
      · simp
    · obtain ⟨s', r1, r2, r3, r4, r5, r6, r7⟩ := ih (i + 1) ⟨MainPc.sending (i + 1), es', (cut (scriptBytes events)).2, bw, crc,
          pre ++ [queuedW b] ++ List.replicate (bs.length + k) WorkerState.spawn⟩ rfl e2 hb2 (pre ++ [queuedW b])
        (by simp [hpre]) rfl (by simpa using hlast)
      refine ⟨s', reach_trans (Reach.step _ _ Reach.init (Step.main _ _ hstep)) r1, ?_, r3, r4, ?_, r6, r7⟩
      · rw [r2]; simp; omega
      · rw [r5]; simp

/-- Every worker takes one step. -/
theorem step_all {α : Type} (gen : Work → Res (List Bit)) (f g : α → WorkerState) (s : Sys) (he : s.ended = false)
    (hfg : ∀ a, workerStep gen false (f a) = some (g a)) (l : List α) (pre post : List WorkerState)
    (hw : s.workers = pre ++ l.map f ++ post) :
    Reach gen false s { s with workers := pre ++ l.map g ++ post } := by
  induction l generalizing s pre with
  | nil =>
    obtain ⟨pc, events, fin, bw, crc, workers⟩ := s
    simp only [List.map_nil, List.append_nil] at hw ⊢
    subst hw
    exact Reach.init
  | cons a l ih =>
    obtain ⟨pc, events, fin, bw, crc, workers⟩ := s
    simp only at hw
    subst hw
    have h1 : Step gen false ⟨pc, events, fin, bw, crc, pre ++ (a :: l).map f ++ post⟩
        ⟨pc, events, fin, bw, crc, pre ++ [g a] ++ l.map f ++ post⟩ := by
      have := Step.worker (gen := gen) (failTail := false) ⟨pc, events, fin, bw, crc, pre ++ (a :: l).map f ++ post⟩ pre.length (f a) (g a)
        (by simp) (by rw [he]; exact hfg a)
      simpa using this
    have h2 := ih ⟨pc, events, fin, bw, crc, pre ++ [g a] ++ l.map f ++ post⟩ he (pre ++ [g a]) rfl
    have h3 := reach_trans (Reach.step _ _ Reach.init h1) h2
    simpa using h3

/-- The main thread receives and writes the results. -/
theorem flush_all (gen : Work → Res (List Bit)) (l : List (List UInt8 × List Bit)) (i : Nat) (s : Sys)
    (hp : s.pc = MainPc.flushing i) (hg : s.bw.Good) (hi : i + l.length = s.workers.length)
    (hw : s.workers = List.replicate i WorkerState.spawn ++ l.map readyW) (hf : s.fin = false) :
    ∃ s', Reach gen false s s' ∧ s'.pc = MainPc.sending 0 ∧ s'.events = s.events ∧ s'.fin = false ∧
      s'.workers = List.replicate s.workers.length WorkerState.spawn ∧ s'.bw.Good ∧
      s'.bw.bits = s.bw.bits ++ (l.map (·.2)).flatten := by
  induction l generalizing i s with
  | nil =>
    obtain ⟨pc, events, fin, bw, crc, workers⟩ := s
    simp only [List.map_nil, List.append_nil, List.length_nil, Nat.add_zero] at hp hi hw hf hg
    subst hp hf
    refine ⟨⟨MainPc.sending 0, events, false, bw, crc, workers⟩,
      Reach.step _ _ Reach.init (Step.main _ _ ?_), rfl, rfl, rfl, by rw [← hi]; exact hw, hg, by simp⟩
    simp only [mainStep, mainFlush]
    rw [List.getElem?_eq_none (by omega)]
    simp
  | cons a l ih =>
    obtain ⟨pc, events, fin, bw, crc, workers⟩ := s
    simp only at hp hi hw hf hg
    subst hp hf
    obtain ⟨bw', w1, w2, w3⟩ := bw.writeBits_good a.2 hg
    have hget : workers[i]? = some (readyW a) := by
      rw [hw, List.getElem?_append_right (by simp)]
      simp
    have hstep : mainStep false ⟨MainPc.flushing i, events, false, bw, crc, workers⟩
        = some ⟨MainPc.flushing (i + 1), events, false, bw', combineCrc crc (workOf a.1).crc,
            List.replicate (i + 1) WorkerState.spawn ++ l.map readyW⟩ := by
      simp only [mainStep, mainFlush, hget, readyW, if_true, w1]
      rw [hw, List.set_append_right _ _ (by simp)]
      rw [List.replicate_succ']
      simp [WorkerState.spawn]
    obtain ⟨s', r1, r2, r3, r4, r5, r6, r7⟩ := ih (i + 1) ⟨MainPc.flushing (i + 1), events, false, bw',
        combineCrc crc (workOf a.1).crc, List.replicate (i + 1) WorkerState.spawn ++ l.map readyW⟩ rfl w2
      (by simp) rfl rfl
    refine ⟨s', reach_trans (Reach.step _ _ Reach.init (Step.main _ _ hstep)) r1, r2, r3, r4, ?_, r6, ?_⟩
    · rw [r5, hw]; simp; omega
    · rw [r7]; simp only; rw [w3]; simp

/-- Half a round: the workers are busy with the next blocks. -/
theorem round_busy (gen : Work → Res (List Bit)) (bs rest : List (List UInt8)) (k : Nat) (s : Sys)
    (hp : s.pc = MainPc.sending 0) (hes : Steady s.events) (hb : blocksOf (scriptBytes s.events) = bs ++ rest)
    (hf : s.fin = false) (hw : s.workers = List.replicate (bs.length + k) WorkerState.spawn) :
    ∃ s', Reach gen false s s' ∧ s'.workers = bs.map busyW ++ List.replicate k WorkerState.spawn ∧ s'.bw = s.bw := by
  obtain ⟨s1, r1, r2, r3, r4, r5, r6, r7⟩ := send_all gen bs rest k 0 s hp hes hb [] rfl (by simpa using hw) hf
  have he1 : s1.ended = false := by rw [Sys.ended, r2]
  have hrecv := step_all gen queuedW busyW s1 he1 (fun b => by simp [workerStep, queuedW, busyW]) bs [] _ r5
  exact ⟨_, reach_trans r1 hrecv, by simp, r6⟩

/-- The workers finish their computations. -/
theorem run_all (gen : Work → Res (List Bit)) (l : List (List UInt8 × List Bit)) :
    ∀ (pre post : List WorkerState) (s : Sys), s.ended = false →
      (∀ bo ∈ l, gen (workOf bo.1) = Res.ok bo.2) → s.workers = pre ++ l.map (fun bo => busyW bo.1) ++ post →
      Reach gen false s { s with workers := pre ++ l.map readyW ++ post } := by
  induction l with
  | nil =>
    intro pre post s he _ hw
    obtain ⟨pc, events, fin, bw, crc, workers⟩ := s
    simp only [List.map_nil, List.append_nil] at hw ⊢
    subst hw
    exact Reach.init
  | cons a l ih =>
    intro pre post s he hl hw
    obtain ⟨pc, events, fin, bw, crc, workers⟩ := s
    simp only at hw
    subst hw
    have h1 : Step gen false ⟨pc, events, fin, bw, crc, pre ++ (a :: l).map (fun bo => busyW bo.1) ++ post⟩
        ⟨pc, events, fin, bw, crc, pre ++ [readyW a] ++ l.map (fun bo => busyW bo.1) ++ post⟩ := by
      have := Step.worker (gen := gen) (failTail := false)
        ⟨pc, events, fin, bw, crc, pre ++ (a :: l).map (fun bo => busyW bo.1) ++ post⟩ pre.length (busyW a.1) (readyW a)
        (by simp) (by rw [he]; simp [workerStep, busyW, readyW, hl a (by simp)])
      simpa using this
    have h2 := ih (pre ++ [readyW a]) post ⟨pc, events, fin, bw, crc, pre ++ [readyW a] ++ l.map (fun bo => busyW bo.1) ++ post⟩ he
      (fun bo hbo => hl bo (by simp [hbo])) rfl
    have h3 := reach_trans (Reach.step _ _ Reach.init h1) h2
    simpa using h3

theorem results_exist (gen : Work → Res (List Bit)) (bs : List (List UInt8)) (hg : ∀ b ∈ bs, ∃ o, gen (workOf b) = Res.ok o) :
    ∃ bos : List (List UInt8 × List Bit), bos.map (·.1) = bs ∧ ∀ bo ∈ bos, gen (workOf bo.1) = Res.ok bo.2 := by
  induction bs with
  | nil => exact ⟨[], rfl, by simp⟩
  | cons b bs ih =>
    obtain ⟨o, ho⟩ := hg b (by simp)
    obtain ⟨bos, h1, h2⟩ := ih fun b hb => hg b (by simp [hb])
    exact ⟨(b, o) :: bos, by simp [h1], by
      intro bo hbo
      rcases List.mem_cons.1 hbo with rfl | hbo
      · exact ho
      · exact h2 bo hbo⟩

/-- A part of a round: the workers have finished, and the main thread has not yet asked for the next block. -/
theorem round_ready (gen : Work → Res (List Bit)) (bs rest : List (List UInt8)) (k : Nat) (s : Sys)
    (hp : s.pc = MainPc.sending 0) (hes : Steady s.events) (hb : blocksOf (scriptBytes s.events) = bs ++ rest)
    (hf : s.fin = false) (hw : s.workers = List.replicate (bs.length + k) WorkerState.spawn)
    (hg : ∀ b ∈ bs, ∃ o, gen (workOf b) = Res.ok o) :
    ∃ s', Reach gen false s s' ∧ s'.pc = MainPc.sending bs.length ∧ s'.bw = s.bw ∧
      ∃ bos : List (List UInt8 × List Bit), (bos.map (·.1) = bs ∧ ∀ bo ∈ bos, gen (workOf bo.1) = Res.ok bo.2) ∧
        s'.workers = bos.map readyW ++ List.replicate k WorkerState.spawn := by
  obtain ⟨s1, r1, r2, r3, r4, r5, r6, r7⟩ := send_all gen bs rest k 0 s hp hes hb [] rfl (by simpa using hw) hf
  have he1 : s1.ended = false := by rw [Sys.ended, r2]
  have hrecv := step_all gen queuedW busyW s1 he1 (fun b => by simp [workerStep, queuedW, busyW]) bs [] _ r5
  obtain ⟨bos, h1, h2⟩ := results_exist gen bs hg
  have h3 := run_all gen bos [] (List.replicate k WorkerState.spawn) _ (by exact he1) h2
    (show ({ s1 with workers := [] ++ bs.map busyW ++ List.replicate k WorkerState.spawn } : Sys).workers = _ by
      rw [← h1]; simp [Function.comp_def])
  exact ⟨_, reach_trans r1 (reach_trans hrecv h3), by rw [← Nat.zero_add bs.length]; exact r2, r6, bos, ⟨h1, h2⟩, by simp⟩

/-- One round with a block for every worker: the results are written. -/
theorem round (gen : Work → Res (List Bit)) (bs rest : List (List UInt8)) (s : Sys) (hp : s.pc = MainPc.sending 0)
    (hes : Steady s.events) (hb : blocksOf (scriptBytes s.events) = bs ++ rest) (hf : s.fin = false)
    (hw : s.workers = List.replicate bs.length WorkerState.spawn) (hgood : s.bw.Good)
    (hg : ∀ b ∈ bs, ∃ o, gen (workOf b) = Res.ok o) :
    rest ≠ [] → ∃ (s' : Sys) (outs : List (List Bit)), Reach gen false s s' ∧ s'.pc = MainPc.sending 0 ∧ Steady s'.events ∧
      blocksOf (scriptBytes s'.events) = rest ∧ s'.fin = false ∧ s'.workers = List.replicate bs.length WorkerState.spawn ∧
      s'.bw.Good ∧ bs.map (fun b => gen (workOf b)) = outs.map Res.ok ∧ s'.bw.bits = s.bw.bits ++ outs.flatten := by
  intro hr
  obtain ⟨s1, r1, r2, r3, r4, r5, r6, r7⟩ := send_all gen bs rest 0 0 s hp hes hb [] rfl (by simpa using hw) hf
  have he1 : s1.ended = false := by rw [Sys.ended, r2]
  have hrecv := step_all gen queuedW busyW s1 he1 (fun b => by simp [workerStep, queuedW, busyW]) bs [] _ r5
  obtain ⟨bos, hbos, hgen⟩ : ∃ bos : List (List UInt8 × List Bit), bos.map (·.1) = bs ∧
      ∀ bo ∈ bos, gen (workOf bo.1) = Res.ok bo.2 := by
    clear * - hg
    induction bs with
    | nil => exact ⟨[], rfl, by simp⟩
    | cons b bs ih =>
      obtain ⟨o, ho⟩ := hg b (by simp)
      obtain ⟨bos, h1, h2⟩ := ih fun b hb => hg b (by simp [hb])
      exact ⟨(b, o) :: bos, by simp [h1], by
        intro bo hbo
        rcases List.mem_cons.1 hbo with rfl | hbo
        · exact ho
        · exact h2 bo hbo⟩
  have hrun : ∀ (l : List (List UInt8 × List Bit)) (pre : List WorkerState) (s : Sys), s.ended = false →
      (∀ bo ∈ l, gen (workOf bo.1) = Res.ok bo.2) → s.workers = pre ++ l.map (fun bo => busyW bo.1) →
      Reach gen false s { s with workers := pre ++ l.map readyW } := by
    intro l
    induction l with
    | nil =>
      intro pre s he _ hw
      obtain ⟨pc, events, fin, bw, crc, workers⟩ := s
      simp only [List.map_nil, List.append_nil] at hw ⊢
      subst hw
      exact Reach.init
    | cons a l ih =>
      intro pre s he hl hw
      obtain ⟨pc, events, fin, bw, crc, workers⟩ := s
      simp only at hw
      subst hw
      have h1 : Step gen false ⟨pc, events, fin, bw, crc, pre ++ (a :: l).map (fun bo => busyW bo.1)⟩
          ⟨pc, events, fin, bw, crc, pre ++ [readyW a] ++ l.map (fun bo => busyW bo.1)⟩ := by
        have := Step.worker (gen := gen) (failTail := false)
          ⟨pc, events, fin, bw, crc, pre ++ (a :: l).map (fun bo => busyW bo.1)⟩ pre.length (busyW a.1) (readyW a)
          (by simp) (by rw [he]; simp [workerStep, busyW, readyW, hl a (by simp)])
        simpa using this
      have h2 := ih (pre ++ [readyW a]) ⟨pc, events, fin, bw, crc, pre ++ [readyW a] ++ l.map (fun bo => busyW bo.1)⟩ he
        (fun bo hbo => hl bo (by simp [hbo])) rfl
      have h3 := reach_trans (Reach.step _ _ Reach.init h1) h2
      simpa using h3
  obtain ⟨pc1, events1, fin1, bw1, crc1, workers1⟩ := s1
  simp only at r2 r3 r4 r5 r6 r7 he1 hrecv
  subst r2
  simp only [List.nil_append, Nat.zero_add, List.replicate_zero, List.append_nil] at r5 hrecv
  have hlen : bos.length = bs.length := by rw [← hbos]; simp
  have h2 := hrun bos [] ⟨MainPc.sending bs.length, events1, fin1, bw1, crc1, bs.map busyW⟩ rfl hgen
    (by rw [← hbos]; simp [Function.comp_def])
  simp only [List.nil_append] at h2
  have h3 : Step gen false ⟨MainPc.sending bs.length, events1, fin1, bw1, crc1, bos.map readyW⟩
      ⟨MainPc.flushing 0, events1, fin1, bw1, crc1, bos.map readyW⟩ := by
    refine Step.main _ _ ?_
    simp only [mainStep, mainSend]
    rw [List.getElem?_eq_none (by simp [hlen])]
  obtain ⟨s', q1, q2, q3, q4, q5, q6, q7⟩ := flush_all gen bos 0 ⟨MainPc.flushing 0, events1, fin1, bw1, crc1, bos.map readyW⟩
    rfl (by rw [r6]; exact hgood) (by simp) (by simp) (r7 hr)
  refine ⟨s', bos.map (·.2), ?_, q2, by rw [q3]; exact r3, by rw [q3]; exact r4, q4, ?_, q6, ?_, ?_⟩
  · simp only [Nat.zero_add] at r1
    exact reach_trans r1 (reach_trans hrecv (reach_trans h2 (reach_trans (Reach.step _ _ Reach.init h3) q1)))
  · rw [q5]; simp [hlen]
  · rw [← hbos, List.map_map, List.map_map]
    exact List.map_congr_left fun bo hbo => hgen bo hbo
  · rw [q7]; simp only; rw [r6]

end Ribzip2
