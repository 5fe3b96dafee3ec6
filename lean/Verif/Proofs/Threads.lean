import Verif.Model.Threads
import Verif.Proofs.StreamErrors
import Mathlib.Data.List.Forall2
/- Invariants of the thread model: every schedule computes what the sequential model computes. -/
namespace Ribzip2
open Spec

/-- The sequential computation behind the main loop. -/
def tailOf (bw : BitWriter) (crc : BitVec 32) : BitWriter × Res Unit :=
  andThen (match bw.writeBits (streamFooter crc) with | (bw, r) => (bw, r.unwrap)) fun bw _ =>
    match bw.finalize with | (bw, r) => (bw, r.unwrap)

/-- The sequential computation from the head of the main loop. -/
def headOf (gen : Work → Res (List Bit)) (ft : Bool) (n fuel : Nat) (events : List REvent) (fin : Bool)
    (bw : BitWriter) (crc : BitVec 32) : BitWriter × Res Unit :=
  andThen (mainLoop gen ft n fuel events fin bw crc) tailOf

/-- The sequential computation from the flush loop with these works pending. -/
def flushOf (gen : Work → Res (List Bit)) (ft : Bool) (n fuel : Nat) (p : List Work) (events : List REvent)
    (fin : Bool) (bw : BitWriter) (crc : BitVec 32) : BitWriter × Res Unit :=
  andThen (flushLoop gen p bw crc) fun bw crc => headOf gen ft n fuel events fin bw crc

/-- The sequential computation from the send loop with `k` workers to go. -/
def sendOf (gen : Work → Res (List Bit)) (ft : Bool) (n fuel : Nat) (p : List Work) (k : Nat)
    (events : List REvent) (fin : Bool) (bw : BitWriter) (crc : BitVec 32) : BitWriter × Res Unit :=
  match sendLoop ft k events fin with
  | Res.ok (works, events, fin) => flushOf gen ft n fuel (p ++ works) events fin bw crc
  | Res.err => (bw, Res.err)
  | Res.panic => (bw, Res.panic)
  | Res.div => (bw, Res.div)

/-- The whole sequential computation. -/
def wholeOf (gen : Work → Res (List Bit)) (ft : Bool) (n fuel : Nat) (events : List REvent) (fin : Bool)
    (bw : BitWriter) (crc : BitVec 32) : BitWriter × Res Unit :=
  andThen (match bw.writeBits fileHeader with | (bw, r) => (bw, r.unwrap)) fun bw _ =>
    headOf gen ft n fuel events fin bw crc

theorem encodeStreamFuel_eq_whole (fuel : Nat) (dist : Distance) (r : Reader) (w : Writer) (n : Nat)
    (strategy : Strategy) :
    encodeStreamFuel fuel dist r w n strategy =
      ((wholeOf (fun work => generateBlockData dist strategy work.crc work.rleTotal) r.failTail n fuel
        r.events false (BitWriter.fromWriter w) 0).1.w,
       (wholeOf (fun work => generateBlockData dist strategy work.crc work.rleTotal) r.failTail n fuel
        r.events false (BitWriter.fromWriter w) 0).2) := rfl

theorem andThen_assoc {α β γ : Type} (x : BitWriter × Res α) (f : BitWriter → α → BitWriter × Res β)
    (g : BitWriter → β → BitWriter × Res γ) :
    andThen (andThen x f) g = andThen x fun bw a => andThen (f bw a) g := by
  rcases x with ⟨bw, _ | _ | _ | _⟩ <;> rfl

theorem headOf_fin (gen : Work → Res (List Bit)) (ft : Bool) (n fuel : Nat) (events : List REvent)
    (bw : BitWriter) (crc : BitVec 32) :
    headOf gen ft n (fuel + 1) events true bw crc = tailOf bw crc := rfl

theorem headOf_loop (gen : Work → Res (List Bit)) (ft : Bool) (n fuel : Nat) (events : List REvent)
    (bw : BitWriter) (crc : BitVec 32) :
    headOf gen ft n (fuel + 1) events false bw crc = sendOf gen ft n fuel [] n events false bw crc := by
  rw [headOf, mainLoop, sendOf]
  simp only [Bool.false_eq_true, if_false]
  rcases sendLoop ft n events false with ⟨works, events, fin⟩ | _ | _ | _ <;> try rfl
  simp only [List.nil_append, flushOf]
  rcases flushLoop gen works bw crc with ⟨bw, _ | _ | _ | _⟩ <;> rfl

theorem sendOf_step_none (gen : Work → Res (List Bit)) (ft : Bool) (n fuel : Nat) (p : List Work) (k : Nat)
    (events es' : List REvent) (fin f : Bool) (bw : BitWriter) (crc : BitVec 32)
    (h : nextBlock ft events = Res.ok (none, es', f)) :
    sendOf gen ft n fuel p (k + 1) events fin bw crc = flushOf gen ft n fuel p es' (fin || f) bw crc := by
  rw [sendOf, sendLoop, h]
  simp

theorem sendOf_step_some (gen : Work → Res (List Bit)) (ft : Bool) (n fuel : Nat) (p : List Work) (k : Nat)
    (events es' : List REvent) (fin f : Bool) (work : Work) (bw : BitWriter) (crc : BitVec 32)
    (h : nextBlock ft events = Res.ok (some work, es', f)) :
    sendOf gen ft n fuel p (k + 1) events fin bw crc
      = sendOf gen ft n fuel (p ++ [work]) k es' (fin || f) bw crc := by
  rw [sendOf, sendLoop, h, Res.ok_bind]
  simp only [sendOf]
  rcases sendLoop ft k es' (fin || f) with ⟨works, events, fin⟩ | _ | _ | _ <;> simp

theorem sendOf_zero (gen : Work → Res (List Bit)) (ft : Bool) (n fuel : Nat) (p : List Work)
    (events : List REvent) (fin : Bool) (bw : BitWriter) (crc : BitVec 32) :
    sendOf gen ft n fuel p 0 events fin bw crc = flushOf gen ft n fuel p events fin bw crc := by
  simp [sendOf, sendLoop]

/-! ### the invariant -/

/-- The state of a worker that has been given `a` and whose result was not received yet (`some`), or
that has nothing to do (`none`). -/
inductive WOk (gen : Work → Res (List Bit)) : Option Work → WorkerState → Prop where
  | idle : WOk gen none ⟨[], none, [], false, true⟩
  | queued (work : Work) : WOk gen (some work) ⟨[work], none, [], true, true⟩
  | busy (work : Work) : WOk gen (some work) ⟨[], some work, [], true, true⟩
  | ready (work : Work) (bits : List Bit) (h : gen work = Res.ok bits) :
      WOk gen (some work) ⟨[], none, [(bits, work.crc)], true, true⟩
  | dead (work : Work) (h : gen work = Res.err ∨ gen work = Res.panic) :
      WOk gen (some work) ⟨[], none, [], true, false⟩

/-- The works still to be received, by worker, agree with where the main thread is. -/
def Shape (n : Nat) (assigned : List (Option Work)) : MainPc → Prop
  | MainPc.start => assigned = List.replicate n none
  | MainPc.sending i => ∃ p : List Work, assigned = p.map some ++ List.replicate (n - i) none ∧ p.length = i ∧ i ≤ n
  | MainPc.flushing i => ∃ rest, assigned = List.replicate i none ++ rest ∧ i ≤ n ∧ assigned.length = n
  | MainPc.footer => assigned = List.replicate n none
  | MainPc.done _ => False

/-- What the sequential computation still has to do in this state. -/
def contOf (gen : Work → Res (List Bit)) (ft : Bool) (n fuel : Nat) (p : List Work) (s : Sys) :
    BitWriter × Res Unit :=
  match s.pc with
  | MainPc.start => wholeOf gen ft n (fuel + 1) s.events s.fin s.bw s.crc
  | MainPc.sending i => sendOf gen ft n fuel p (n - i) s.events s.fin s.bw s.crc
  | MainPc.flushing _ => flushOf gen ft n fuel p s.events s.fin s.bw s.crc
  | MainPc.footer => tailOf s.bw s.crc
  | MainPc.done r => (s.bw, r)

/-- The invariant: the shape of the state, and the sequential computation from this state gives the
result of the whole. -/
structure Inv (gen : Work → Res (List Bit)) (ft : Bool) (n : Nat) (whole : Nat → BitWriter × Res Unit)
    (s : Sys) : Prop where
  shape : s.ended = false → ∃ assigned, List.Forall₂ (WOk gen) assigned s.workers ∧ Shape n assigned s.pc ∧
    (s.pc = MainPc.start ∨ s.pc = MainPc.sending 0 → s.fin = false) ∧
    ∃ k, ∀ fuel, whole (fuel + k)
      = contOf gen ft n fuel (assigned.filterMap id) s
  result : ∀ r, s.pc = MainPc.done r → ∃ k, ∀ fuel,
    whole (fuel + k) = (s.bw, r)

theorem forall2_length {α β : Type} {R : α → β → Prop} {l : List α} {m : List β} (h : List.Forall₂ R l m) :
    l.length = m.length := h.length_eq

theorem forall2_get {α β : Type} {R : α → β → Prop} {l : List α} {m : List β} (h : List.Forall₂ R l m)
    (i : Nat) (b : β) (hb : m[i]? = some b) : ∃ a, l[i]? = some a ∧ R a b := by
  induction h generalizing i with
  | nil => simp at hb
  | cons h1 h2 ih =>
    cases i with
    | zero => simp at hb; subst hb; exact ⟨_, rfl, h1⟩
    | succ i => exact ih i (by simpa using hb)

theorem forall2_set {α β : Type} {R : α → β → Prop} {l : List α} {m : List β} (h : List.Forall₂ R l m)
    (i : Nat) (a : α) (b : β) (hR : R a b) : List.Forall₂ R (l.set i a) (m.set i b) := by
  induction h generalizing i with
  | nil => simp
  | cons h1 h2 ih =>
    cases i with
    | zero => exact List.Forall₂.cons hR h2
    | succ i => exact List.Forall₂.cons h1 (ih i)

theorem set_get_self {α : Type} (l : List α) (i : Nat) (a : α) (h : l[i]? = some a) : l.set i a = l := by
  apply List.ext_getElem?
  intro j
  by_cases hj : i = j
  · subst hj
    rw [List.getElem?_set_self (by obtain ⟨h, -⟩ := List.getElem?_eq_some_iff.1 h; exact h), h]
  · rw [List.getElem?_set_ne hj]

/-- A worker step keeps the worker in line with its assignment. -/
theorem workerStep_ok (gen : Work → Res (List Bit)) (a : Option Work) (wk wk' : WorkerState)
    (h : WOk gen a wk) (hs : workerStep gen false wk = some wk') : WOk gen a wk' := by
  cases h with
  | idle => simp [workerStep] at hs
  | queued work => simp [workerStep] at hs; subst hs; exact WOk.busy work
  | busy work =>
    simp only [workerStep, if_true] at hs
    split at hs
    · rename_i bits hg
      simp at hs; subst hs; exact WOk.ready work bits hg
    · simp at hs; subst hs; exact WOk.busy work
    · rename_i h1 h2
      simp at hs; subst hs
      refine WOk.dead work ?_
      cases hg : gen work with
      | ok b => exact absurd hg (h1 b)
      | div => exact absurd hg h2
      | err => exact Or.inl rfl
      | panic => exact Or.inr rfl
  | ready work bits hg => simp [workerStep] at hs
  | dead work hg => simp [workerStep] at hs

theorem contOf_workers (gen : Work → Res (List Bit)) (ft : Bool) (n fuel : Nat) (p : List Work) (s : Sys)
    (ws : List WorkerState) : contOf gen ft n fuel p { s with workers := ws } = contOf gen ft n fuel p s := rfl

theorem inv_init (gen : Work → Res (List Bit)) (ft : Bool) (r : Reader) (w : Writer) (n : Nat) :
    Inv gen ft n (fun fuel => wholeOf gen ft n fuel r.events false (BitWriter.fromWriter w) 0) (Sys.init r w n) := by
  refine ⟨fun _ => ⟨List.replicate n none, ?_, rfl, fun _ => rfl, 1, fun fuel => rfl⟩, by simp [Sys.init]⟩
  show List.Forall₂ (WOk gen) (List.replicate n none) (List.replicate n WorkerState.spawn)
  induction n with
  | zero => exact List.Forall₂.nil
  | succ n ih => exact List.Forall₂.cons WOk.idle (ih rfl)

theorem inv_worker (gen : Work → Res (List Bit)) (ft : Bool) (n : Nat) (whole : Nat → BitWriter × Res Unit)
    (s : Sys) (h : Inv gen ft n whole s)
    (i : Nat) (wk wk' : WorkerState) (hi : s.workers[i]? = some wk)
    (hs : workerStep gen s.ended wk = some wk') : Inv gen ft n whole { s with workers := s.workers.set i wk' } := by
  constructor
  · intro he
    have he' : s.ended = false := he
    obtain ⟨assigned, h1, h2, h3, k, h4⟩ := h.shape he'
    obtain ⟨a, g1, g2⟩ := forall2_get h1 i wk hi
    rw [he'] at hs
    have := forall2_set h1 i a wk' (workerStep_ok gen a wk wk' g2 hs)
    rw [set_get_self _ _ _ g1] at this
    exact ⟨assigned, this, h2, h3, k, h4⟩
  · intro r hr
    exact h.result r hr

theorem inv_main (gen : Work → Res (List Bit)) (ft : Bool) (n : Nat) (whole : Nat → BitWriter × Res Unit)
    (s s' : Sys) (h : Inv gen ft n whole s)
    (hs : mainStep ft s = some s') : Inv gen ft n whole s' := by
  obtain ⟨pc, events, fin, bw, crc, workers⟩ := s
  cases pc with
  | done r => simp [mainStep] at hs
  | start =>
    obtain ⟨assigned, h1, h2, h3, k, h4⟩ := h.shape rfl
    have hf : fin = false := h3 (Or.inl rfl)
    subst hf
    simp only [mainStep, Option.some.injEq, mainHeader] at hs
    simp only [Shape] at h2
    simp only [contOf, wholeOf] at h4
    split at hs
    · rename_i bw' u hw
      subst hs
      simp only [hw, Res.unwrap_ok, andThen] at h4
      refine ⟨fun _ => ⟨assigned, h1, ⟨[], by simp [h2]⟩, fun _ => rfl, k, ?_⟩, by simp⟩
      intro fuel
      have : assigned.filterMap id = [] := by
        rw [h2]; simp
      rw [h4 fuel, headOf_loop, contOf, this]
      rfl
    · rename_i bw' r hr hw
      subst hs
      refine ⟨by simp [Sys.ended], ?_⟩
      intro r' hr'
      simp only [MainPc.done.injEq] at hr'
      refine ⟨k, fun fuel => ?_⟩
      rw [h4 fuel, hw]
      subst hr'
      cases r with
      | ok a => exact absurd rfl (hr a)
      | err => rfl
      | panic => rfl
      | div => rfl
  | footer =>
    obtain ⟨assigned, h1, h2, h3, k, h4⟩ := h.shape rfl
    simp only [mainStep, Option.some.injEq, mainFooter] at hs
    subst hs
    refine ⟨by simp [Sys.ended], ?_⟩
    intro r' hr'
    simp only [MainPc.done.injEq] at hr'
    refine ⟨k, fun fuel => ?_⟩
    rw [h4 fuel, ← hr']
    rfl
  | sending i =>
    obtain ⟨assigned, h1, h2, h3, k, h4⟩ := h.shape rfl
    obtain ⟨p, g1, g2, g3⟩ := h2
    have hp : assigned.filterMap id = p := by
      rw [g1, List.filterMap_append, List.filterMap_map]
      simp
    rw [hp] at h4
    have hlen : assigned.length = n := by rw [g1]; simp; omega
    have hwl : workers.length = n := by rw [← hlen]; exact h1.length_eq.symm
    simp only [mainStep, Option.some.injEq, mainSend] at hs
    simp only [contOf] at h4
    split at hs
    · rename_i hi
      have hi' : workers.length ≤ i := by simpa using hi
      subst hs
      refine ⟨fun _ => ⟨assigned, h1, ⟨assigned, by simp, by omega, hlen⟩, by simp, k, ?_⟩, by simp⟩
      intro fuel
      rw [h4 fuel, show n - i = 0 by omega, sendOf_zero, contOf, hp]
    · rename_i wk hi
      have hi' : i < workers.length := by
        obtain ⟨h, -⟩ := List.getElem?_eq_some_iff.1 hi; exact h
      obtain ⟨a, a1, a2⟩ := forall2_get h1 i wk hi
      have ha : a = none := by
        rw [g1, List.getElem?_append_right (by simp; omega)] at a1
        simp only [List.length_map, List.getElem?_replicate] at a1
        split at a1 <;> simp at a1
        exact a1.symm
      subst ha
      cases a2
      obtain ⟨k', hk'⟩ : ∃ k', n - i = k' + 1 := ⟨n - i - 1, by omega⟩
      split at hs
      · rename_i es' f hb
        subst hs
        refine ⟨fun _ => ⟨assigned, h1, ⟨assigned, by simp, by omega, hlen⟩, by simp, k, ?_⟩, by simp⟩
        intro fuel
        rw [h4 fuel, hk', sendOf_step_none _ _ _ _ _ _ _ _ _ _ _ _ hb, contOf, hp]
      · rename_i work es' f hb
        simp only [sendWork, if_true, List.nil_append] at hs
        subst hs
        have hset : assigned.set i (some work) = (p ++ [work]).map some ++ List.replicate (n - (i + 1)) none := by
          rw [g1, List.set_append_right _ _ (by simp; omega), hk']
          simp only [List.length_map, show i - p.length = 0 by omega, List.replicate_succ, List.set_cons_zero,
            List.map_append, List.append_assoc, show n - (i + 1) = k' by omega]
          rfl
        refine ⟨fun _ => ⟨assigned.set i (some work), forall2_set h1 i _ _ (WOk.queued work),
          ⟨p ++ [work], hset, by simp [g2], by omega⟩, by simp, k, ?_⟩, by simp⟩
        intro fuel
        rw [h4 fuel, hk', sendOf_step_some _ _ _ _ _ _ _ _ _ _ _ _ _ hb, contOf, hset, List.filterMap_append,
          List.filterMap_map]
        simp [show n - (i + 1) = k' by omega]
      · rename_i hb
        obtain ⟨w, es', f, t, -⟩ := nextBlock_total ft events
        rw [t] at hb
        simp at hb
      · rename_i n1 n2 n3
        obtain ⟨w, es', f, t, -⟩ := nextBlock_total ft events
        cases w with
        | none => exact absurd t (n1 _ _)
        | some work => exact absurd t (n2 _ _ _)
  | flushing i =>
    obtain ⟨assigned, h1, h2, h3, k, h4⟩ := h.shape rfl
    obtain ⟨rest, g1, g2, g3⟩ := h2
    have hp : assigned.filterMap id = rest.filterMap id := by
      rw [g1, List.filterMap_append]
      simp
    rw [hp] at h4
    have hwl : workers.length = n := by rw [← g3]; exact h1.length_eq.symm
    simp only [mainStep, mainFlush] at hs
    simp only [contOf] at h4
    split at hs
    · rename_i hi
      have hi' : workers.length ≤ i := by simpa using hi
      have hrest : rest = [] := by
        have := congrArg List.length g1
        simp only [List.length_append, List.length_replicate] at this
        exact List.length_eq_zero_iff.1 (by omega)
      subst hrest
      simp only [List.append_nil] at g1
      have hin : i = n := by omega
      subst hin
      simp only [Option.some.injEq] at hs
      cases fin with
      | true =>
        simp only [if_true] at hs
        subst hs
        refine ⟨fun _ => ⟨assigned, h1, g1, by simp, k + 1, ?_⟩, by simp⟩
        intro fuel
        rw [show fuel + (k + 1) = fuel + 1 + k by omega, h4 (fuel + 1)]
        rfl
      | false =>
        simp only [Bool.false_eq_true, if_false] at hs
        subst hs
        refine ⟨fun _ => ⟨assigned, h1, ⟨[], by simp [g1]⟩, by simp, k + 1, ?_⟩, by simp⟩
        intro fuel
        rw [show fuel + (k + 1) = fuel + 1 + k by omega, h4 (fuel + 1), contOf, hp]
        show headOf gen ft i (fuel + 1) events false bw crc = _
        rw [headOf_loop]
        rfl
    · rename_i wk hi
      have hi' : i < workers.length := by
        obtain ⟨h, -⟩ := List.getElem?_eq_some_iff.1 hi; exact h
      obtain ⟨a, a1, a2⟩ := forall2_get h1 i wk hi
      match rest, g1 with
      | [], g1 =>
        have := congrArg List.length g1
        simp only [List.append_nil, List.length_replicate] at this
        omega
      | b :: rest, g1 =>
        have hb : b = a := by
          rw [g1, List.getElem?_append_right (by simp)] at a1
          simpa using a1
        subst hb
        have hsplit : ∀ x : Option Work, List.replicate i x ++ x :: rest = List.replicate (i + 1) x ++ rest := by
          intro x; rw [List.replicate_succ']; simp
        cases a2 with
        | idle =>
          simp only [Bool.false_eq_true, if_false, Option.some.injEq] at hs
          subst hs
          refine ⟨fun _ => ⟨assigned, h1, ⟨rest, by rw [g1, hsplit], by omega, g3⟩, by simp, k, ?_⟩, by simp⟩
          intro fuel
          rw [h4 fuel, contOf, hp]
        | queued work => simp at hs
        | busy work => simp at hs
        | ready work bits hg =>
          simp only [if_true] at hs
          have hfl : ∀ fuel, flushOf gen ft n fuel ((some work :: rest).filterMap id) events fin bw crc
              = andThen (flushOne gen work bw crc) fun bw crc =>
                  flushOf gen ft n fuel (rest.filterMap id) events fin bw crc := by
            intro fuel
            simp only [List.filterMap_cons_some (f := id) (b := work) rfl, flushOf]
            rw [flushLoop]
            rcases flushOne gen work bw crc with ⟨bw, _ | _ | _ | _⟩ <;> rfl
          split at hs
          · rename_i bw' u hw
            simp only [Option.some.injEq] at hs
            subst hs
            have hset : assigned.set i none = List.replicate (i + 1) none ++ rest := by
              rw [g1, List.set_append_right _ _ (by simp), List.length_replicate, Nat.sub_self,
                List.set_cons_zero, hsplit]
            refine ⟨fun _ => ⟨assigned.set i none, forall2_set h1 i _ _ WOk.idle,
              ⟨rest, hset, by omega, by simp [g3]⟩, by simp, k, ?_⟩, by simp⟩
            intro fuel
            rw [h4 fuel, hfl, flushOne, hg]
            simp only [hw, contOf, hset, List.filterMap_append]
            simp [andThen]
          · rename_i bw' u hn hw
            simp only [Option.some.injEq] at hs
            subst hs
            refine ⟨by simp [Sys.ended], ?_⟩
            intro r' hr'
            simp only [MainPc.done.injEq] at hr'
            refine ⟨k, fun fuel => ?_⟩
            rw [h4 fuel, hfl, flushOne, hg, ← hr']
            simp only [hw]
            cases u with
            | ok a => exact absurd rfl (hn a)
            | err => rfl
            | panic => rfl
            | div => rfl
        | dead work hg =>
          simp only [if_true, Bool.false_eq_true, if_false, Option.some.injEq] at hs
          subst hs
          refine ⟨by simp [Sys.ended], ?_⟩
          intro r' hr'
          simp only [MainPc.done.injEq] at hr'
          refine ⟨k, fun fuel => ?_⟩
          rw [h4 fuel, ← hr', List.filterMap_cons_some (f := id) (b := work) rfl]
          simp only [flushOf, flushLoop, flushOne]
          rcases hg with hg | hg <;> rw [hg] <;> rfl

theorem inv_reach (gen : Work → Res (List Bit)) (ft : Bool) (r : Reader) (w : Writer) (n : Nat) (s : Sys)
    (h : Reach gen ft (Sys.init r w n) s) : Inv gen ft n (fun fuel => wholeOf gen ft n fuel r.events false (BitWriter.fromWriter w) 0) s := by
  induction h with
  | init => exact inv_init gen ft r w n
  | step s s' _ hs ih =>
    cases hs with
    | main _ h => exact inv_main gen ft n _ s s' ih h
    | worker i wk wk' hi h => exact inv_worker gen ft n _ s ih i wk wk' hi h

/-! ### fuel -/

theorem mainLoop_fuel (gen : Work → Res (List Bit)) (ft : Bool) (n fuel k : Nat) (events : List REvent)
    (fin : Bool) (bw : BitWriter) (crc : BitVec 32) (h : (mainLoop gen ft n fuel events fin bw crc).2 ≠ Res.div) :
    mainLoop gen ft n (fuel + k) events fin bw crc = mainLoop gen ft n fuel events fin bw crc := by
  induction fuel generalizing events fin bw crc with
  | zero => simp [mainLoop] at h
  | succ fuel ih =>
    rw [show fuel + 1 + k = fuel + k + 1 by omega, mainLoop, mainLoop]
    rw [mainLoop] at h
    split
    · rfl
    · rename_i hf
      rw [if_neg hf] at h
      split
      · rename_i works es' fin' hs
        rw [hs] at h
        dsimp only at h
        split
        · rename_i bw' crc' hfl
          rw [hfl] at h
          exact ih es' fin' bw' crc' h
        · rfl
      all_goals rfl

theorem andThen_ne_div_left {α β : Type} {x : BitWriter × Res α} {f : BitWriter → α → BitWriter × Res β}
    (h : (andThen x f).2 ≠ Res.div) : x.2 ≠ Res.div := by
  rcases x with ⟨bw, _ | _ | _ | _⟩ <;> simp_all [andThen]

theorem wholeOf_fuel (gen : Work → Res (List Bit)) (ft : Bool) (n fuel k : Nat) (events : List REvent)
    (fin : Bool) (bw : BitWriter) (crc : BitVec 32) (h : (wholeOf gen ft n fuel events fin bw crc).2 ≠ Res.div) :
    wholeOf gen ft n (fuel + k) events fin bw crc = wholeOf gen ft n fuel events fin bw crc := by
  unfold wholeOf headOf at *
  rcases hw : bw.writeBits fileHeader with ⟨bw', _ | _ | _ | _⟩ <;> try rfl
  rw [hw] at h
  have h' : (andThen (mainLoop gen ft n fuel events fin bw' crc) tailOf).2 ≠ Res.div := h
  simp only [Res.unwrap_ok, andThen]
  rw [mainLoop_fuel _ _ _ _ _ _ _ _ _ (andThen_ne_div_left h')]

/-- A finished execution has the result of the sequential model, whatever its (sufficient) fuel. -/
theorem finished_eq_fuel (dist : Distance) (strategy : Strategy) (r : Reader) (w : Writer) (n : Nat) (s : Sys)
    (h : Reach (fun work => generateBlockData dist strategy work.crc work.rleTotal) r.failTail
      (Sys.init r w n) s) (res : Res Unit) (hd : s.pc = MainPc.done res) :
    ∃ k, ∀ fuel, encodeStreamFuel (fuel + k) dist r w n strategy = (s.bw.w, res) := by
  obtain ⟨k, hk⟩ := (inv_reach _ _ r w n s h).result res hd
  refine ⟨k, fun fuel => ?_⟩
  rw [encodeStreamFuel_eq_whole, hk fuel]

/-! ### progress -/

/-- No deadlock: as long as the call has not ended, some thread can take a step. -/
theorem progress (gen : Work → Res (List Bit)) (ft : Bool) (n : Nat) (whole : Nat → BitWriter × Res Unit)
    (s : Sys) (h : Inv gen ft n whole s) (he : s.ended = false) : ∃ s', Step gen ft s s' := by
  obtain ⟨assigned, h1, h2, -, -⟩ := h.shape he
  by_cases hm : ∃ s', mainStep ft s = some s'
  · obtain ⟨s', hs⟩ := hm
    exact ⟨s', Step.main s s' hs⟩
  · have hnone : mainStep ft s = none := by
      cases hs : mainStep ft s with
      | none => rfl
      | some s' => exact absurd ⟨s', hs⟩ hm
    obtain ⟨pc, events, fin, bw, crc, workers⟩ := s
    cases pc with
    | start => simp [mainStep] at hnone
    | sending i => simp [mainStep] at hnone
    | footer => simp [mainStep] at hnone
    | done r => simp [Sys.ended] at he
    | flushing i =>
      simp only [mainStep, mainFlush] at hnone
      split at hnone
      · simp at hnone
      · rename_i wk hi
        obtain ⟨a, a1, a2⟩ := forall2_get h1 i wk hi
        cases a2 with
        | idle => simp at hnone
        | queued work =>
          exact ⟨_, Step.worker _ i _ ⟨[], some work, [], true, true⟩ hi rfl⟩
        | busy work =>
          cases hg : gen work with
          | ok bits =>
            exact ⟨_, Step.worker _ i _ ⟨[], none, [(bits, work.crc)], true, true⟩ hi
              (by simp [workerStep, hg, Sys.ended])⟩
          | err => exact ⟨_, Step.worker _ i _ ⟨[], none, [], true, false⟩ hi (by simp [workerStep, hg])⟩
          | panic => exact ⟨_, Step.worker _ i _ ⟨[], none, [], true, false⟩ hi (by simp [workerStep, hg])⟩
          | div => exact ⟨_, Step.worker _ i _ ⟨[], some work, [], true, true⟩ hi (by simp [workerStep, hg])⟩
        | ready work bits hg =>
          simp only [if_true] at hnone
          split at hnone <;> simp at hnone
        | dead work hg => simp at hnone

/-! ### termination -/

/-- Steps a worker can still take. -/
def workerPot (wk : WorkerState) : Nat :=
  3 * wk.inbox.length + (if wk.busy.isSome then 2 else 0) + (if wk.alive then 1 else 0)

def workersPot (ws : List WorkerState) : Nat := (ws.map workerPot).sum

/-- Steps the main thread can still take without reading. -/
def pcPot (n : Nat) (fin : Bool) : MainPc → Nat
  | MainPc.start => 5 * n + 5
  | MainPc.sending i => 4 * (n - i) + (n + 4) + (if i = 0 ∨ fin = true then 0 else 5 * n + 4)
  | MainPc.flushing i => (n - i) + 2 + (if fin then 0 else 5 * n + 4)
  | MainPc.footer => 1
  | MainPc.done _ => 0

/-- A bound on the number of steps of the whole system. -/
def pot (n : Nat) (s : Sys) : Nat :=
  measureOf s.events * (5 * n + 4) + pcPot n s.fin s.pc + workersPot s.workers

theorem workersPot_set (ws : List WorkerState) (i : Nat) (wk wk' : WorkerState) (h : ws[i]? = some wk) :
    workersPot (ws.set i wk') + workerPot wk = workersPot ws + workerPot wk' := by
  induction ws generalizing i with
  | nil => simp at h
  | cons x ws ih =>
    cases i with
    | zero =>
      simp at h; subst h
      simp only [List.set_cons_zero, workersPot, List.map_cons, List.sum_cons]
      omega
    | succ i =>
      have := ih i (by simpa using h)
      simp only [List.set_cons_succ, workersPot, List.map_cons, List.sum_cons] at this ⊢
      omega

theorem workerStep_pot (gen : Work → Res (List Bit)) (ended : Bool) (wk wk' : WorkerState)
    (hgen : ∀ work, wk.busy = some work → gen work ≠ Res.div)
    (h : workerStep gen ended wk = some wk') : workerPot wk' < workerPot wk := by
  obtain ⟨inbox, busy, outbox, pending, alive⟩ := wk
  cases alive with
  | false => simp [workerStep] at h
  | true =>
    cases busy with
    | some work =>
      simp only [workerStep, if_true] at h
      split at h
      · cases ended <;> simp at h <;> subst h <;> simp [workerPot]
        omega
      · rename_i hg; exact absurd hg (hgen work rfl)
      · simp at h; subst h; simp [workerPot]; omega
    | none =>
      cases inbox with
      | cons work rest => simp [workerStep] at h; subst h; simp [workerPot]; omega
      | nil => cases ended <;> simp [workerStep] at h; subst h; simp [workerPot]

theorem mainStep_pot (gen : Work → Res (List Bit)) (n : Nat) (hn : 1 ≤ n) (whole : Nat → BitWriter × Res Unit)
    (s s' : Sys) (h : Inv gen false n whole s) (hs : mainStep false s = some s') : pot n s' < pot n s := by
  obtain ⟨pc, events, fin, bw, crc, workers⟩ := s
  cases pc with
  | done r => simp [mainStep] at hs
  | start =>
    simp only [mainStep, Option.some.injEq, mainHeader] at hs
    split at hs <;> subst hs <;> simp [pot, pcPot] <;> omega
  | footer =>
    simp only [mainStep, Option.some.injEq, mainFooter] at hs
    subst hs
    simp [pot, pcPot]
  | sending i =>
    obtain ⟨assigned, h1, h2, h3, -⟩ := h.shape rfl
    obtain ⟨p, g1, g2, g3⟩ := h2
    have hlen : assigned.length = n := by rw [g1]; simp; omega
    have hwl : workers.length = n := by rw [← hlen]; exact h1.length_eq.symm
    simp only [mainStep, Option.some.injEq, mainSend] at hs
    split at hs
    · rename_i hi
      have hi' : workers.length ≤ i := by simpa using hi
      subst hs
      have hi0 : i ≠ 0 := by omega
      cases fin <;> simp [pot, pcPot, hi0] <;> omega
    · rename_i wk hi
      have hi' : i < workers.length := by
        obtain ⟨h, -⟩ := List.getElem?_eq_some_iff.1 hi; exact h
      obtain ⟨w, es', f, t, -⟩ := nextBlock_total false events
      obtain ⟨m1, m2, m3⟩ := nextBlock_measure false events w es' f t
      have hcase : (measureOf es' + 1) * (5 * n + 4) ≤ measureOf events * (5 * n + 4) ∨
          (f = true ∧ measureOf es' * (5 * n + 4) ≤ measureOf events * (5 * n + 4)) := by
        by_cases he : events = []
        · exact Or.inr ⟨(m3 rfl he).1, Nat.mul_le_mul_right _ m1⟩
        · exact Or.inl (Nat.mul_le_mul_right _ (m2 he))
      have hmono := Nat.mul_le_mul_right (5 * n + 4) m1
      rw [Nat.add_mul] at hcase
      obtain ⟨a, a1, a2⟩ := forall2_get h1 i wk hi
      have ha : a = none := by
        rw [g1, List.getElem?_append_right (by simp; omega)] at a1
        simp only [List.length_map, List.getElem?_replicate] at a1
        split at a1 <;> simp at a1
        exact a1.symm
      subst ha
      cases a2
      cases w with
      | none =>
        rw [t] at hs
        dsimp only at hs
        subst hs
        by_cases hi0 : i = 0
        · subst hi0
          have hf : fin = false := h3 (Or.inr rfl)
          subst hf
          cases f <;> simp [pot, pcPot] <;> simp at hcase <;> omega
        · cases fin <;> cases f <;> simp [pot, pcPot, hi0] <;> omega
      | some work =>
        rw [t] at hs
        simp only [sendWork, if_true, List.nil_append] at hs
        subst hs
        have hw := workersPot_set workers i _ ⟨[work], none, [], true, true⟩ hi
        simp only [workerPot, List.length_nil, List.length_singleton, Option.isSome_none, if_true] at hw
        simp only [Bool.false_eq_true, if_false] at hw
        by_cases hi0 : i = 0
        · subst hi0
          have hf : fin = false := h3 (Or.inr rfl)
          subst hf
          cases f <;> simp [pot, pcPot] <;> simp at hcase <;> omega
        · cases fin <;> cases f <;> simp [pot, pcPot, hi0] <;> omega
  | flushing i =>
    obtain ⟨assigned, h1, h2, -, -⟩ := h.shape rfl
    obtain ⟨rest, g1, g2, g3⟩ := h2
    have hwl : workers.length = n := by rw [← g3]; exact h1.length_eq.symm
    simp only [mainStep, mainFlush] at hs
    split at hs
    · rename_i hi
      simp only [Option.some.injEq] at hs
      subst hs
      cases fin <;> simp [pot, pcPot]
      omega
    · rename_i wk hi
      have hi' : i < workers.length := by
        obtain ⟨h, -⟩ := List.getElem?_eq_some_iff.1 hi; exact h
      split at hs
      · split at hs
        · rename_i bits c rest ho
          split at hs <;> simp only [Option.some.injEq] at hs <;> subst hs
          · have hw := workersPot_set workers i _ { wk with outbox := rest, pending := false } hi
            have : workerPot { wk with outbox := rest, pending := false } = workerPot wk := rfl
            cases fin <;> simp [pot, pcPot] <;> omega
          · have hw := workersPot_set workers i _ { wk with outbox := rest } hi
            have : workerPot { wk with outbox := rest } = workerPot wk := rfl
            cases fin <;> simp [pot, pcPot] <;> omega
        · split at hs <;> simp only [Option.some.injEq, reduceCtorEq] at hs
          subst hs
          cases fin <;> simp [pot, pcPot] <;> omega
      · simp only [Option.some.injEq] at hs
        subst hs
        cases fin <;> simp [pot, pcPot] <;> omega

end Ribzip2
