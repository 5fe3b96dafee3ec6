import Verif.Proofs.Threads
import Verif.Proofs.GenNoDiv
import Verif.Proofs.StreamGeneral
/- How much the threads of `encode_stream` hold at any time, and that the workers end. -/
namespace Ribzip2
open Spec

/-- Blocks a worker holds: queued, being compressed, or compressed and not yet received. -/
def WorkerState.load (wk : WorkerState) : Nat :=
  wk.inbox.length + (if wk.busy.isSome then 1 else 0) + wk.outbox.length

/-- What holds of every worker at any time: at most one block, of bounded size. -/
structure Light (wk : WorkerState) : Prop where
  load : wk.load ≤ 1
  inbox : ∀ work ∈ wk.inbox, work.rleTotal.length ≤ 900005
  busy : ∀ work, wk.busy = some work → work.rleTotal.length ≤ 900005

theorem workerStep_light (gen : Work → Res (List Bit)) (ended : Bool) (wk wk' : WorkerState) (h : Light wk)
    (hs : workerStep gen ended wk = some wk') : Light wk' := by
  obtain ⟨inbox, busy, outbox, pending, alive⟩ := wk
  obtain ⟨h1, h2, h3⟩ := h
  simp only [WorkerState.load] at h1 h2 h3
  cases alive with
  | false => simp [workerStep] at hs
  | true =>
    cases busy with
    | some work =>
      simp only [workerStep, if_true] at hs
      simp only [Option.isSome_some, if_true] at h1
      split at hs
      · cases ended <;> simp at hs <;> subst hs <;>
          refine ⟨by simp [WorkerState.load]; omega, h2, by simp⟩
      · simp at hs; subst hs; exact ⟨by simp [WorkerState.load]; omega, h2, h3⟩
      · simp at hs; subst hs; exact ⟨by simp [WorkerState.load]; omega, h2, by simp⟩
    | none =>
      cases inbox with
      | cons work rest =>
        simp [workerStep] at hs; subst hs
        simp at h1
        refine ⟨by simp [WorkerState.load]; omega, fun x hx => h2 x (by simp [hx]), ?_⟩
        intro x hx
        simp at hx
        subst hx
        exact h2 work (by simp)
      | nil =>
        cases ended <;> simp [workerStep] at hs
        subst hs
        exact ⟨by simpa [WorkerState.load] using h1, by simp, by simp⟩

theorem mem_set_cases {α : Type} {l : List α} {i : Nat} {a x : α} (h : x ∈ l.set i a) : x ∈ l ∨ x = a := by
  rcases List.mem_or_eq_of_mem_set h with h | h
  · exact Or.inl h
  · exact Or.inr h

theorem light_pending {wk : WorkerState} (h : Light wk) (b : Bool) : Light { wk with pending := b } :=
  ⟨h.load, h.inbox, h.busy⟩

theorem light_outbox {wk : WorkerState} (h : Light wk) (b : Bool) {x : List Bit × BitVec 32}
    {rest : List (List Bit × BitVec 32)} (ho : wk.outbox = x :: rest) :
    Light { wk with outbox := rest, pending := b } := by
  refine ⟨?_, h.inbox, h.busy⟩
  have := h.load
  simp only [WorkerState.load, ho, List.length_cons] at this ⊢
  omega

theorem mainStep_light (gen : Work → Res (List Bit)) (ft : Bool) (n : Nat) (whole : Nat → BitWriter × Res Unit)
    (s s' : Sys) (hinv : Inv gen ft n whole s) (h : ∀ wk ∈ s.workers, Light wk)
    (hs : mainStep ft s = some s') : ∀ wk ∈ s'.workers, Light wk := by
  obtain ⟨pc, events, fin, bw, crc, workers⟩ := s
  cases pc with
  | done r => simp [mainStep] at hs
  | start =>
    simp only [mainStep, Option.some.injEq, mainHeader] at hs
    split at hs <;> subst hs <;> exact h
  | footer =>
    simp only [mainStep, Option.some.injEq, mainFooter] at hs
    subst hs
    exact h
  | sending i =>
    obtain ⟨assigned, h1, h2, -, -⟩ := hinv.shape rfl
    obtain ⟨p, g1, g2, g3⟩ := h2
    simp only [mainStep, Option.some.injEq, mainSend] at hs
    split at hs
    · subst hs; exact h
    · rename_i wk hi
      obtain ⟨w, es', f, t, t2⟩ := nextBlock_total ft events
      obtain ⟨a, a1, a2⟩ := forall2_get h1 i wk hi
      have ha : a = none := by
        rw [g1, List.getElem?_append_right (by simp; omega)] at a1
        simp only [List.length_map, List.getElem?_replicate] at a1
        split at a1 <;> simp at a1
        exact a1.symm
      subst ha
      cases a2
      cases w with
      | none =>
        rw [t] at hs
        dsimp only at hs
        subst hs
        exact h
      | some work =>
        rw [t] at hs
        simp only [sendWork, if_true, List.nil_append] at hs
        subst hs
        intro wk hwk
        rcases mem_set_cases hwk with hwk | rfl
        · exact h wk hwk
        · obtain ⟨b, -, k2, k3⟩ := t2 work rfl
          refine ⟨by simp [WorkerState.load], ?_, by simp⟩
          intro x hx
          simp at hx
          subst hx
          rw [k2]
          exact k3
  | flushing i =>
    simp only [mainStep, mainFlush] at hs
    split at hs
    · simp only [Option.some.injEq] at hs
      subst hs
      exact h
    · rename_i wk hi
      have hm : wk ∈ workers := List.mem_of_getElem? hi
      split at hs
      · split at hs
        · rename_i bits c rest ho
          split at hs <;> simp only [Option.some.injEq] at hs <;> subst hs
          · intro x hx
            rcases mem_set_cases hx with hx | rfl
            · exact h x hx
            · exact light_outbox (h wk hm) false ho
          · intro x hx
            rcases mem_set_cases hx with hx | rfl
            · exact h x hx
            · exact light_outbox (h wk hm) wk.pending ho
        · split at hs <;> simp only [Option.some.injEq, reduceCtorEq] at hs
          subst hs
          exact h
      · simp only [Option.some.injEq] at hs
        subst hs
        exact h

theorem mainStep_workers_length (ft : Bool) (s s' : Sys) (hs : mainStep ft s = some s') :
    s'.workers.length = s.workers.length := by
  obtain ⟨pc, events, fin, bw, crc, workers⟩ := s
  cases pc with
  | done r => simp [mainStep] at hs
  | start =>
    simp only [mainStep, Option.some.injEq, mainHeader] at hs
    split at hs <;> subst hs <;> rfl
  | footer =>
    simp only [mainStep, Option.some.injEq, mainFooter] at hs
    subst hs
    rfl
  | sending i =>
    simp only [mainStep, Option.some.injEq, mainSend] at hs
    split at hs
    · subst hs; rfl
    · split at hs
      · subst hs; rfl
      · unfold sendWork at hs
        split at hs <;> subst hs <;> simp
      · subst hs; rfl
      · subst hs; rfl
  | flushing i =>
    simp only [mainStep, mainFlush] at hs
    split at hs
    · simp only [Option.some.injEq] at hs
      subst hs
      rfl
    · split at hs
      · split at hs
        · split at hs <;> simp only [Option.some.injEq] at hs <;> subst hs <;> simp
        · split at hs <;> simp only [Option.some.injEq, reduceCtorEq] at hs
          subst hs
          rfl
      · simp only [Option.some.injEq] at hs
        subst hs
        rfl

theorem reach_light (gen : Work → Res (List Bit)) (ft : Bool) (r : Reader) (w : Writer) (n : Nat) (s : Sys)
    (h : Reach gen ft (Sys.init r w n) s) : s.workers.length = n ∧ ∀ wk ∈ s.workers, Light wk := by
  induction h with
  | init =>
    refine ⟨by simp [Sys.init], ?_⟩
    intro wk hwk
    have : wk = WorkerState.spawn := List.eq_of_mem_replicate hwk
    subst this
    exact ⟨by simp [WorkerState.load, WorkerState.spawn], by simp [WorkerState.spawn], by simp [WorkerState.spawn]⟩
  | step s s' hr hs ih =>
    cases hs with
    | main _ hm =>
      exact ⟨(mainStep_workers_length _ _ _ hm).trans ih.1,
        mainStep_light gen ft n _ s s' (inv_reach gen ft r w n s hr) ih.2 hm⟩
    | worker i wk wk' hi hw =>
      refine ⟨by simpa using ih.1, ?_⟩
      intro x hx
      rcases mem_set_cases hx with hx | rfl
      · exact ih.2 x hx
      · exact workerStep_light gen _ wk _ (ih.2 wk (List.mem_of_getElem? hi)) hw

theorem sum_le_of_le_one {α : Type} (l : List α) (f : α → Nat) (c : Nat) (h : ∀ x ∈ l, f x ≤ c) :
    (l.map f).sum ≤ l.length * c := by
  induction l with
  | nil => simp
  | cons a l ih =>
    have := h a (by simp)
    have := ih (fun x hx => h x (by simp [hx]))
    simp only [List.map_cons, List.sum_cons, List.length_cons, Nat.add_mul, Nat.one_mul]
    omega

end Ribzip2
