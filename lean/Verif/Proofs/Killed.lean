import Verif.Proofs.Threads
import Verif.Proofs.StreamWriter
import Verif.Proofs.GenNoDiv
/- An invariant of the thread model that accounts for the data: what has been read is what has been written plus
what the workers hold. -/
namespace Ribzip2
open Spec

/-- `a` blocks have been written, the workers hold `b`: these belong to the same round of `n` blocks. -/
def Rounds (n : Nat) (pc : MainPc) (fin : Bool) (a b : Nat) : Prop :=
  ∃ q, q * n ≤ a ∧ a + b ≤ q * n + n ∧ (pc = MainPc.start → a = 0 ∧ b = 0) ∧
    (∀ i, pc = MainPc.sending i → a = q * n ∧ b = i) ∧ (∀ i, pc = MainPc.flushing i → fin = false → a + b = q * n + n)

/-- Reliable writer, reader without errors, workers that do not fail: the state `s` of a call on `d` with `n`
threads. `dn`: the blocks written, `outs`: their bits, `pend`: the blocks the workers hold. -/
structure Acc (gen : Work → Res (List Bit)) (d : List UInt8) (n : Nat) (s : Sys) (dn pend : List (List UInt8))
    (outs : List (List Bit)) : Prop where
  steady : Steady s.events
  all : dn ++ pend ++ blocksOf (scriptBytes s.events) = blocksOf d
  made : dn.map (fun b => gen (workOf b)) = outs.map Res.ok
  few : pend.length ≤ n
  busy : s.ended = false → ∃ assigned, List.Forall₂ (WOk gen) assigned s.workers ∧ Shape n assigned s.pc ∧
    assigned.filterMap id = pend.map workOf
  good : s.ended = false → s.bw.Good
  start : s.pc = MainPc.start → s.bw.bits = [] ∧ dn = []
  mid : s.ended = false → s.pc ≠ MainPc.start → s.bw.bits = fileHeader ++ outs.flatten
  fin : s.ended = true → fileHeader ++ outs.flatten <+: bytesBits s.bw.w.out
  round : Rounds n s.pc s.fin dn.length pend.length

theorem acc_init (gen : Work → Res (List Bit)) (es : List REvent) (hes : Steady es) (n : Nat) :
    Acc gen (scriptBytes es) n (Sys.init ⟨es, false⟩ Writer.empty n) [] [] [] := by
  refine ⟨hes, rfl, rfl, Nat.zero_le _, fun _ => ⟨List.replicate n none, ?_, rfl, by simp⟩,
    fun _ => BitWriter.good_from [], fun _ => ⟨rfl, rfl⟩, fun _ h => absurd rfl h, by simp [Sys.init, Sys.ended],
    ⟨0, by simp, by simp, by simp, by simp [Sys.init], by simp [Sys.init]⟩⟩
  obtain ⟨a, h1, h2, -⟩ := (inv_init gen false ⟨es, false⟩ Writer.empty n).shape rfl
  simp only [Sys.init, Shape] at h2
  rw [← h2]; exact h1

theorem filterMap_replicate_none {α : Type} (n : Nat) : (List.replicate n (none : Option α)).filterMap id = [] := by
  induction n with
  | zero => rfl
  | succ n ih => simp

theorem acc_main (gen : Work → Res (List Bit)) (d : List UInt8) (n : Nat)
    (hg : ∀ b ∈ blocksOf d, ∃ o, gen (workOf b) = Res.ok o) (s s' : Sys) (dn pend : List (List UInt8))
    (outs : List (List Bit)) (h : Acc gen d n s dn pend outs) (hs : mainStep false s = some s') :
    ∃ dn' pend' outs', Acc gen d n s' dn' pend' outs' := by
  obtain ⟨pc, events, fin, bw, crc, workers⟩ := s
  obtain ⟨q, q1, q2, q3, q4, q5⟩ := h.round
  simp only at q1 q2 q3 q4 q5
  cases pc with
  | done r => simp [mainStep] at hs
  | start =>
    obtain ⟨assigned, h1, h2, h3⟩ := h.busy rfl
    obtain ⟨g1, rfl⟩ := h.start rfl
    simp only [mainStep, Option.some.injEq, mainHeader] at hs
    obtain ⟨bw', w1, w2, w3⟩ := bw.writeBits_good fileHeader (h.good rfl)
    simp only at g1
    rw [w1] at hs
    subst hs
    have ho : outs = [] := by simpa using h.made.symm
    subst ho
    simp only [Shape] at h2
    refine ⟨[], pend, [], h.steady, h.all, rfl, h.few, fun _ => ⟨assigned, h1, ⟨[], by simp [h2]⟩, h3⟩,
      fun _ => w2, by simp, fun _ _ => ?_, by simp [Sys.ended], ⟨q, q1, q2, by simp, ?_, by simp⟩⟩
    · simp only [w3, g1]
      simp
    · intro i hi
      simp only [MainPc.sending.injEq] at hi
      have := q3 rfl
      simp only [List.length_nil] at this q1 ⊢
      omega
  | footer =>
    obtain ⟨assigned, h1, h2, h3⟩ := h.busy rfl
    simp only [mainStep, Option.some.injEq, mainFooter] at hs
    obtain ⟨bw', w1, w2, w3⟩ := bw.writeBits_good (streamFooter crc) (h.good rfl)
    obtain ⟨bw'', f1, k, -, f2, -⟩ := bw'.finalize_good w2
    have hm := h.mid rfl (by simp)
    simp only [w1, Res.unwrap_ok, andThen, f1] at hs
    subst hs
    refine ⟨dn, pend, outs, h.steady, h.all, h.made, h.few, by simp [Sys.ended], by simp [Sys.ended], by simp,
      by simp [Sys.ended], fun _ => ?_, ⟨q, q1, q2, by simp, by simp, by simp⟩⟩
    simp only at hm
    rw [f2, w3, hm]
    exact ⟨streamFooter crc ++ List.replicate k false, by simp⟩
  | sending i =>
    obtain ⟨assigned, h1, h2, h3⟩ := h.busy rfl
    obtain ⟨p, g1, g2, g3⟩ := h2
    have hp : assigned.filterMap id = p := by
      rw [g1, List.filterMap_append, List.filterMap_map]
      simp
    have hlen : assigned.length = n := by rw [g1]; simp; omega
    have hwl : workers.length = n := by rw [← hlen]; exact h1.length_eq.symm
    simp only [mainStep, Option.some.injEq, mainSend] at hs
    have hm := h.mid rfl (by simp)
    split at hs
    · rename_i hi
      subst hs
      have hi' : workers.length ≤ i := by simpa using hi
      have := q4 i rfl
      exact ⟨dn, pend, outs, h.steady, h.all, h.made, h.few, fun _ => ⟨assigned, h1, ⟨assigned, by simp, by omega, hlen⟩, h3⟩,
        fun _ => h.good rfl, by simp, fun _ _ => hm, by simp [Sys.ended],
        ⟨q, q1, q2, by simp, by simp, fun _ _ _ => by omega⟩⟩
    · rename_i wk hi
      have hi' : i < workers.length := by
        obtain ⟨h, -⟩ := List.getElem?_eq_some_iff.1 hi; exact h
      obtain ⟨a, a1, a2⟩ := forall2_get h1 i wk hi
      have ha : a = none := by
        rw [g1, List.getElem?_append_right (by simp; omega)] at a1
        simp only [List.length_map, List.getElem?_replicate] at a1
        split at a1 <;> simp at a1
        exact a1.symm
      subst ha
      cases a2
      obtain ⟨k', hk'⟩ : ∃ k', n - i = k' + 1 := ⟨n - i - 1, by omega⟩
      obtain ⟨es', e1, e2, e3⟩ := nextBlock_steady events h.steady
      have hall := h.all
      simp only at hall
      rw [e1] at hs
      by_cases hd : scriptBytes events = []
      · rw [if_pos hd] at hs
        simp only at hs
        subst hs
        refine ⟨dn, pend, outs, e2, ?_, h.made, h.few, fun _ => ⟨assigned, h1, ⟨assigned, by simp, by omega, hlen⟩, h3⟩,
          fun _ => h.good rfl, by simp, fun _ _ => hm, by simp [Sys.ended],
          ⟨q, q1, q2, by simp, by simp, fun _ _ hf => absurd hf (by rw [hd]; simp [cut_nil])⟩⟩
        rw [e3, hd]
        rw [hd] at hall
        simpa using hall
      · rw [if_neg hd] at hs
        simp only [sendWork, if_true, List.nil_append] at hs
        subst hs
        rw [blocksOf_cons _ hd] at hall
        have hset : assigned.set i (some (workOf ((scriptBytes events).take (cut (scriptBytes events)).1)))
            = (p ++ [workOf ((scriptBytes events).take (cut (scriptBytes events)).1)]).map some
              ++ List.replicate (n - (i + 1)) none := by
          rw [g1, List.set_append_right _ _ (by simp; omega), hk']
          simp only [List.length_map, show i - p.length = 0 by omega, List.replicate_succ, List.set_cons_zero,
            List.map_append, List.append_assoc, show n - (i + 1) = k' by omega]
          rfl
        refine ⟨dn, pend ++ [(scriptBytes events).take (cut (scriptBytes events)).1], outs, e2, ?_, h.made, ?_,
          fun _ => ⟨assigned.set i (some (workOf ((scriptBytes events).take (cut (scriptBytes events)).1))),
            forall2_set h1 i _ _ (WOk.queued _),
            ⟨p ++ [workOf ((scriptBytes events).take (cut (scriptBytes events)).1)], hset, by simp [g2], by omega⟩, ?_⟩,
          fun _ => h.good rfl, by simp, fun _ _ => hm, by simp [Sys.ended], ⟨q, q1, ?_, by simp, ?_, by simp⟩⟩
        · rw [e3, ← hall]; simp
        · have hpl := congrArg List.length (hp ▸ h3)
          rw [List.length_map] at hpl
          rw [List.length_append, List.length_singleton]
          omega
        · rw [hset, List.filterMap_append, List.filterMap_map]
          have h4 : p = pend.map workOf := hp ▸ h3
          simp [h4]
        · have := q4 i rfl
          simp only [List.length_append, List.length_singleton]
          omega
        · intro i' hi'
          simp only [MainPc.sending.injEq] at hi'
          have := q4 i rfl
          simp only [List.length_append, List.length_singleton]
          omega
  | flushing i =>
    obtain ⟨assigned, h1, h2, h3⟩ := h.busy rfl
    obtain ⟨rest, g1, g2, g3⟩ := h2
    have hp : assigned.filterMap id = rest.filterMap id := by
      rw [g1, List.filterMap_append]
      simp
    have hwl : workers.length = n := by rw [← g3]; exact h1.length_eq.symm
    simp only [mainStep, mainFlush] at hs
    have hm := h.mid rfl (by simp)
    split at hs
    · rename_i hi
      have hi' : workers.length ≤ i := by simpa using hi
      have hrest : rest = [] := by
        have := congrArg List.length g1
        simp only [List.length_append, List.length_replicate] at this
        exact List.length_eq_zero_iff.1 (by omega)
      subst hrest
      simp only [List.append_nil] at g1
      have hin : i = n := by omega
      subst hin
      simp only [Option.some.injEq] at hs
      cases fin with
      | true =>
        simp only [if_true] at hs
        subst hs
        exact ⟨dn, pend, outs, h.steady, h.all, h.made, h.few, fun _ => ⟨assigned, h1, g1, h3⟩,
          fun _ => h.good rfl, by simp, fun _ _ => hm, by simp [Sys.ended], ⟨q, q1, q2, by simp, by simp, by simp⟩⟩
      | false =>
        simp only [Bool.false_eq_true, if_false] at hs
        subst hs
        have hpe : pend = [] := by
          rw [hp] at h3
          simpa using h3
        subst hpe
        have := q5 i rfl rfl
        simp only [List.length_nil] at this q2
        refine ⟨dn, [], outs, h.steady, h.all, h.made, h.few, fun _ => ⟨assigned, h1, ⟨[], by simp [g1]⟩, h3⟩,
          fun _ => h.good rfl, by simp, fun _ _ => hm, by simp [Sys.ended],
          ⟨q + 1, by rw [Nat.succ_mul]; omega, by rw [Nat.succ_mul]; simp only [List.length_nil]; omega, by simp, ?_, by simp⟩⟩
        intro i' hi'
        simp only [MainPc.sending.injEq] at hi'
        rw [Nat.succ_mul]
        simp only [List.length_nil]
        omega
    · rename_i wk hi
      have hi' : i < workers.length := by
        obtain ⟨h, -⟩ := List.getElem?_eq_some_iff.1 hi; exact h
      obtain ⟨a, a1, a2⟩ := forall2_get h1 i wk hi
      match rest, g1 with
      | [], g1 =>
        have := congrArg List.length g1
        simp only [List.append_nil, List.length_replicate] at this
        omega
      | b :: rest, g1 =>
        have hb : b = a := by
          rw [g1, List.getElem?_append_right (by simp)] at a1
          simpa using a1
        subst hb
        have hsplit : ∀ x : Option Work, List.replicate i x ++ x :: rest = List.replicate (i + 1) x ++ rest := by
          intro x; rw [List.replicate_succ']; simp
        have hhead : ∀ work, b = some work → ∃ c pend', pend = c :: pend' ∧ work = workOf c ∧
            rest.filterMap id = pend'.map workOf := by
          intro work hw
          rw [hp, hw, List.filterMap_cons_some (f := id) (b := work) rfl] at h3
          cases pend with
          | nil => simp at h3
          | cons c pend' =>
            simp only [List.map_cons, List.cons.injEq] at h3
            exact ⟨c, pend', rfl, h3.1, h3.2⟩
        cases a2 with
        | idle =>
          simp only [Bool.false_eq_true, if_false, Option.some.injEq] at hs
          subst hs
          exact ⟨dn, pend, outs, h.steady, h.all, h.made, h.few,
            fun _ => ⟨assigned, h1, ⟨rest, by rw [g1, hsplit], by omega, g3⟩, h3⟩,
            fun _ => h.good rfl, by simp, fun _ _ => hm, by simp [Sys.ended],
            ⟨q, q1, q2, by simp, by simp, fun _ _ hf => q5 i rfl hf⟩⟩
        | queued work => simp at hs
        | busy work => simp at hs
        | ready work bits hgen =>
          simp only [if_true] at hs
          obtain ⟨bw', w1, w2, w3⟩ := bw.writeBits_good bits (h.good rfl)
          rw [w1] at hs
          simp only [Option.some.injEq] at hs
          subst hs
          obtain ⟨c, pend', rfl, rfl, hr⟩ := hhead work rfl
          have hset : assigned.set i none = List.replicate (i + 1) none ++ rest := by
            rw [g1, List.set_append_right _ _ (by simp), List.length_replicate, Nat.sub_self,
              List.set_cons_zero, hsplit]
          refine ⟨dn ++ [c], pend', outs ++ [bits], h.steady, ?_, ?_, ?_,
            fun _ => ⟨assigned.set i none, forall2_set h1 i _ _ WOk.idle,
              ⟨rest, hset, by omega, by simp [g3]⟩, ?_⟩, fun _ => w2, by simp, fun _ _ => ?_, by simp [Sys.ended],
            ⟨q, ?_, ?_, by simp, by simp, ?_⟩⟩
          · rw [← h.all]; simp
          · rw [List.map_append, List.map_append, h.made]; simp [hgen]
          · have := h.few
            simp only [List.length_cons] at this
            omega
          · rw [hset, List.filterMap_append, filterMap_replicate_none, List.nil_append, hr]
          · simp only at hm
            rw [w3, hm]; simp
          · simp only [List.length_append, List.length_singleton]
            omega
          · simp only [List.length_append, List.length_cons, List.length_nil] at q2 ⊢
            omega
          · intro _ _ hf
            have := q5 i rfl hf
            simp only [List.length_append, List.length_cons, List.length_nil] at this ⊢
            omega
        | dead work hgen =>
          obtain ⟨c, pend', rfl, rfl, hr⟩ := hhead work rfl
          obtain ⟨o, ho⟩ := hg c (by rw [← h.all]; simp)
          rcases hgen with hgen | hgen <;> rw [hgen] at ho <;> simp at ho

theorem acc_worker (gen : Work → Res (List Bit)) (d : List UInt8) (n : Nat) (s : Sys) (dn pend : List (List UInt8))
    (outs : List (List Bit)) (h : Acc gen d n s dn pend outs) (i : Nat) (wk wk' : WorkerState)
    (hi : s.workers[i]? = some wk) (hs : workerStep gen s.ended wk = some wk') :
    Acc gen d n { s with workers := s.workers.set i wk' } dn pend outs := by
  refine ⟨h.steady, h.all, h.made, h.few, fun he => ?_, h.good, h.start, h.mid, h.fin, h.round⟩
  have he' : s.ended = false := he
  obtain ⟨assigned, h1, h2, h3⟩ := h.busy he'
  obtain ⟨a, g1, g2⟩ := forall2_get h1 i wk hi
  rw [he'] at hs
  have := forall2_set h1 i a wk' (workerStep_ok gen a wk wk' g2 hs)
  rw [set_get_self _ _ _ g1] at this
  exact ⟨assigned, this, h2, h3⟩

theorem acc_reach (gen : Work → Res (List Bit)) (es : List REvent) (hes : Steady es) (n : Nat)
    (hg : ∀ b ∈ blocksOf (scriptBytes es), ∃ o, gen (workOf b) = Res.ok o) (s : Sys)
    (h : Reach gen false (Sys.init ⟨es, false⟩ Writer.empty n) s) :
    ∃ dn pend outs, Acc gen (scriptBytes es) n s dn pend outs := by
  induction h with
  | init => exact ⟨_, _, _, acc_init gen es hes n⟩
  | step s s' _ hs ih =>
    obtain ⟨dn, pend, outs, ih⟩ := ih
    cases hs with
    | main _ h => exact acc_main gen _ n hg s s' dn pend outs ih h
    | worker i wk wk' hi h => exact ⟨dn, pend, outs, acc_worker gen _ n s dn pend outs ih i wk wk' hi h⟩

/-! ### the writer only ever grows -/

theorem write_mono (w : Writer) (buf : List UInt8) : w.out <+: (w.write buf).1.out := by
  unfold Writer.write
  split <;> simp

theorem writeChunks_mono (p : List Bit) (w : Writer) (l : List Bit) : w.out <+: (writeChunks p w l).1.w.out := by
  fun_induction writeChunks p w l with
  | case1 w b0 b1 b2 b3 b4 b5 b6 b7 rest w' u hw ih =>
    have := write_mono w [UInt8.ofNat (convertToNumber [b0, b1, b2, b3, b4, b5, b6, b7])]
    rw [hw] at this
    exact this.trans ih
  | case2 w b0 b1 b2 b3 b4 b5 b6 b7 rest w' r hr hw =>
    have := write_mono w [UInt8.ofNat (convertToNumber [b0, b1, b2, b3, b4, b5, b6, b7])]
    rw [hw] at this
    exact this
  | case3 w rest h => exact List.prefix_refl _

theorem writeBits_mono (bw : BitWriter) (l : List Bit) : bw.w.out <+: (bw.writeBits l).1.w.out :=
  writeChunks_mono _ _ _

theorem finalize_mono (bw : BitWriter) : bw.w.out <+: bw.finalize.1.w.out := by
  unfold BitWriter.finalize
  split
  · exact List.prefix_refl _
  · exact write_mono _ _

theorem mainStep_mono (ft : Bool) (s s' : Sys) (h : mainStep ft s = some s') : s.bw.w.out <+: s'.bw.w.out := by
  obtain ⟨pc, events, fin, bw, crc, workers⟩ := s
  cases pc with
  | done r => simp [mainStep] at h
  | start =>
    simp only [mainStep, Option.some.injEq, mainHeader] at h
    have := writeBits_mono bw fileHeader
    rcases hw : bw.writeBits fileHeader with ⟨bw', r⟩
    rw [hw] at this
    cases r <;> (simp only [hw] at h; subst h; exact this)
  | footer =>
    simp only [mainStep, Option.some.injEq, mainFooter] at h
    subst h
    have h1 := writeBits_mono bw (streamFooter crc)
    rcases hw : bw.writeBits (streamFooter crc) with ⟨bw', r⟩
    rw [hw] at h1
    have h2 := finalize_mono bw'
    cases r with
    | ok u =>
      simp only [Res.unwrap_ok, andThen]
      exact h1.trans h2
    | err => exact h1
    | panic => exact h1
    | div => exact h1
  | sending i =>
    simp only [mainStep, Option.some.injEq, mainSend, sendWork] at h
    subst h
    split
    · exact List.prefix_refl _
    · split
      · exact List.prefix_refl _
      · split <;> exact List.prefix_refl _
      · exact List.prefix_refl _
      · exact List.prefix_refl _
  | flushing i =>
    simp only [mainStep, mainFlush] at h
    split at h
    · simp only [Option.some.injEq] at h; subst h; exact List.prefix_refl _
    · rename_i wk hwk
      split at h
      · split at h
        · rename_i bits c rest ho
          have h1 := writeBits_mono bw bits
          split at h
          · rename_i bw' u hw
            rw [hw] at h1
            simp only [Option.some.injEq] at h; subst h; exact h1
          · rename_i bw' u hn hw
            rw [hw] at h1
            simp only [Option.some.injEq] at h; subst h; exact h1
        · split at h
          · simp at h
          · simp only [Option.some.injEq] at h; subst h; exact List.prefix_refl _
      · simp only [Option.some.injEq] at h; subst h; exact List.prefix_refl _

theorem reach_mono (gen : Work → Res (List Bit)) (ft : Bool) (s s' : Sys) (h : Reach gen ft s s') :
    s.bw.w.out <+: s'.bw.w.out := by
  induction h with
  | init => exact List.prefix_refl _
  | step s1 s2 _ hs ih =>
    cases hs with
    | main _ h => exact ih.trans (mainStep_mono ft s1 s2 h)
    | worker i wk wk' hi h => exact ih

theorem reach_trans {gen : Work → Res (List Bit)} {ft : Bool} {s s' s'' : Sys} (h : Reach gen ft s s')
    (h' : Reach gen ft s' s'') : Reach gen ft s s'' := by
  induction h' with
  | init => exact h
  | step s1 s2 _ hs ih => exact Reach.step _ _ ih hs

end Ribzip2
