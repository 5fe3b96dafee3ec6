import Verif.Proofs.WriterFollow
import Verif.Spec.Writes
/- The stream encoder on any writer whatsoever. -/
namespace Ribzip2
open Spec

/-- One-byte writes: what the writer keeps, the rest of its script, whether no write failed. -/
def feedAny : List WEvent → List UInt8 → List UInt8 × List WEvent × Bool
  | s, [] => ([], s, true)
  | [], b :: bs => (b :: bs, [], true)
  | WEvent.accept k :: s, b :: bs => match feedAny s bs with | (t, s', f) => ([b].take k ++ t, s', f)
  | WEvent.fail :: s, _ :: _ => ([], s, false)

@[simp] theorem feedAny_nil (s : List WEvent) : feedAny s [] = ([], s, true) := by cases s <;> rfl

@[simp] theorem feedAny_reliable (bs : List UInt8) : feedAny [] bs = (bs, [], true) := by cases bs <;> rfl

theorem feedAny_append (s : List WEvent) (bs cs : List UInt8) : feedAny s (bs ++ cs) =
    match feedAny s bs with
    | (t, s', true) => (match feedAny s' cs with | (t2, s2, f) => (t ++ t2, s2, f))
    | (t, s', false) => (t, s', false) := by
  induction bs generalizing s with
  | nil => simp
  | cons b bs ih =>
    match s with
    | [] => simp
    | WEvent.fail :: s => simp [feedAny]
    | WEvent.accept k :: s =>
      simp only [List.cons_append, feedAny, ih s]
      rcases feedAny s bs with ⟨t, s', f⟩
      cases f with
      | false => rfl
      | true =>
        simp only
        rcases feedAny s' cs with ⟨t2, s2, f2⟩
        simp

/-- What `X` does to a writer `a`, compared with a reliable writer `b`. -/
def Run {α : Type} (X : BitWriter → BitWriter × Res α) (a b : BitWriter) : Prop :=
  ∃ bs, (X b).1.w = ⟨b.w.out ++ bs, []⟩ ∧
    ((∃ t s', feedAny a.w.script bs = (t, s', true) ∧
        X a = (⟨(X b).1.pending, ⟨a.w.out ++ t, s'⟩⟩, (X b).2)) ∨
     (∃ t s', feedAny a.w.script bs = (t, s', false) ∧ (X a).1.w = ⟨a.w.out ++ t, s'⟩ ∧ (X a).2 = Res.panic))

def Runs {α : Type} (X : BitWriter → BitWriter × Res α) : Prop :=
  ∀ a b : BitWriter, a.pending = b.pending → b.w.script = [] → Run X a b

theorem write_run (w : Writer) (x : UInt8) :
    (∃ t s', feedAny w.script [x] = (t, s', true) ∧ w.write [x] = (⟨w.out ++ t, s'⟩, Res.ok ())) ∨
    (∃ s', feedAny w.script [x] = ([], s', false) ∧ w.write [x] = (⟨w.out, s'⟩, Res.err)) := by
  obtain ⟨out, s⟩ := w
  match s with
  | [] => exact Or.inl ⟨[x], [], by simp, by simp [Writer.write]⟩
  | WEvent.fail :: s => exact Or.inr ⟨s, by simp [feedAny], by simp [Writer.write]⟩
  | WEvent.accept k :: s => exact Or.inl ⟨[x].take k, s, by simp [feedAny], by simp [Writer.write]⟩

theorem writeChunks_run (p : List Bit) (wa wb : Writer) (l : List Bit) (h3 : wb.script = []) :
    ∃ bs rest, writeChunks p wb l = (⟨rest, ⟨wb.out ++ bs, []⟩⟩, Res.ok ()) ∧
      ((∃ t s', feedAny wa.script bs = (t, s', true) ∧
        writeChunks p wa l = (⟨rest, ⟨wa.out ++ t, s'⟩⟩, Res.ok ())) ∨
       (∃ t s', feedAny wa.script bs = (t, s', false) ∧
        writeChunks p wa l = (⟨p, ⟨wa.out ++ t, s'⟩⟩, Res.err))) := by
  have hnil : ∀ (wa wb : Writer) (l : List Bit), wb.script = [] → writeChunks p wb l = (⟨l, wb⟩, Res.ok ()) →
      writeChunks p wa l = (⟨l, wa⟩, Res.ok ()) →
      ∃ bs rest, writeChunks p wb l = (⟨rest, ⟨wb.out ++ bs, []⟩⟩, Res.ok ()) ∧
      ((∃ t s', feedAny wa.script bs = (t, s', true) ∧
        writeChunks p wa l = (⟨rest, ⟨wa.out ++ t, s'⟩⟩, Res.ok ())) ∨
       (∃ t s', feedAny wa.script bs = (t, s', false) ∧
        writeChunks p wa l = (⟨p, ⟨wa.out ++ t, s'⟩⟩, Res.err))) := by
    intro wa wb l h3 e1 e2
    refine ⟨[], l, ?_, Or.inl ⟨[], wa.script, by simp, ?_⟩⟩
    · rw [e1, List.append_nil, ← h3]
    · rw [e2, List.append_nil]
  induction h : l.length using Nat.strongRecOn generalizing l wa wb with
  | _ n ih =>
    match l with
    | b0 :: b1 :: b2 :: b3 :: b4 :: b5 :: b6 :: b7 :: rest =>
      simp only [writeChunks]
      generalize hx : UInt8.ofNat (convertToNumber [b0, b1, b2, b3, b4, b5, b6, b7]) = x
      have e1 : wb.write [x] = (⟨wb.out ++ [x], []⟩, Res.ok ()) := by simp [Writer.write, h3]
      rw [e1]
      simp only
      rcases write_run wa x with ⟨t0, s', f1, f2⟩ | ⟨s', f1, f2⟩
      · rw [f2]
        simp only
        obtain ⟨bs, r, g1, g2⟩ := ih rest.length (by simp at h; omega) ⟨wa.out ++ t0, s'⟩
          ⟨wb.out ++ [x], []⟩ rest rfl rfl
        have hf : feedAny wa.script (x :: bs) = match feedAny s' bs with | (t2, s2, f) => (t0 ++ t2, s2, f) := by
          have := feedAny_append wa.script [x] bs
          rw [f1] at this
          simpa using this
        refine ⟨x :: bs, r, by rw [g1]; simp, ?_⟩
        rcases g2 with ⟨t, s2, k1, k2⟩ | ⟨t, s2, k1, k2⟩
        · refine Or.inl ⟨t0 ++ t, s2, by rw [hf]; simp only at k1; rw [k1], by rw [k2]; simp⟩
        · refine Or.inr ⟨t0 ++ t, s2, by rw [hf]; simp only at k1; rw [k1], by rw [k2]; simp⟩
      · rw [f2]
        simp only
        obtain ⟨bs, r, g1, -⟩ := ih rest.length (by simp at h; omega) ⟨wb.out ++ [x], []⟩
          ⟨wb.out ++ [x], []⟩ rest rfl rfl
        have hf : feedAny wa.script (x :: bs) = ([], s', false) := by
          have := feedAny_append wa.script [x] bs
          rw [f1] at this
          simpa using this
        exact ⟨x :: bs, r, by rw [g1]; simp, Or.inr ⟨[], s', hf, by simp⟩⟩
    | [] => exact hnil _ _ _ h3 rfl rfl
    | [_] => exact hnil _ _ _ h3 rfl rfl
    | [_, _] => exact hnil _ _ _ h3 rfl rfl
    | [_, _, _] => exact hnil _ _ _ h3 rfl rfl
    | [_, _, _, _] => exact hnil _ _ _ h3 rfl rfl
    | [_, _, _, _, _] => exact hnil _ _ _ h3 rfl rfl
    | [_, _, _, _, _, _] => exact hnil _ _ _ h3 rfl rfl
    | [_, _, _, _, _, _, _] => exact hnil _ _ _ h3 rfl rfl

theorem writeBits_runs (l : List Bit) :
    Runs fun bw => match bw.writeBits l with | (bw, r) => (bw, r.unwrap) := by
  intro a b hp hr
  unfold Run BitWriter.writeBits
  dsimp only
  rw [hp]
  obtain ⟨bs, rest, g1, g2⟩ := writeChunks_run (b.pending ++ l) a.w b.w (b.pending ++ l) hr
  simp only [g1]
  refine ⟨bs, rfl, ?_⟩
  rcases g2 with ⟨t, s', k1, k2⟩ | ⟨t, s', k1, k2⟩
  · exact Or.inl ⟨t, s', k1, by rw [k2]⟩
  · exact Or.inr ⟨t, s', k1, by rw [k2], by rw [k2]; rfl⟩

theorem finalize_runs : Runs fun bw => match bw.finalize with | (bw, r) => (bw, r.unwrap) := by
  intro a b hp hr
  unfold Run BitWriter.finalize
  dsimp only
  rw [hp]
  split
  · refine ⟨[], ?_, Or.inl ⟨[], a.w.script, by simp, ?_⟩⟩
    · obtain ⟨pb, out, s⟩ := b
      simp only at hr
      simp [hr]
    · have e : a = ⟨b.pending, ⟨a.w.out ++ [], a.w.script⟩⟩ := by
        rw [List.append_nil, ← hp]
      simp only [Res.unwrap_ok, Prod.mk.injEq, and_true]
      exact e
  · generalize UInt8.ofNat _ = x
    have e1 : b.w.write [x] = (⟨b.w.out ++ [x], []⟩, Res.ok ()) := by simp [Writer.write, hr]
    simp only [e1]
    refine ⟨[x], rfl, ?_⟩
    rcases write_run a.w x with ⟨t, s', f1, f2⟩ | ⟨s', f1, f2⟩
    · exact Or.inl ⟨t, s', f1, by rw [f2]⟩
    · exact Or.inr ⟨[], s', f1, by rw [f2]; simp, by rw [f2]; rfl⟩

theorem const_runs {α : Type} (r : Res α) : Runs fun bw => (bw, r) := by
  intro a b hp hr
  refine ⟨[], ?_, Or.inl ⟨[], a.w.script, by simp, ?_⟩⟩
  · obtain ⟨pb, out, s⟩ := b
    simp only at hr
    simp [hr]
  · simp only [List.append_nil, ← hp]

theorem andThen_runs {α β : Type} (X : BitWriter → BitWriter × Res α)
    (f : BitWriter → α → BitWriter × Res β) (hX : Runs X) (hf : ∀ v, Runs fun bw => f bw v) :
    Runs fun bw => andThen (X bw) f := by
  intro a b hp hr
  obtain ⟨bs, g1, g2⟩ := hX a b hp hr
  rcases hb : X b with ⟨b1, r⟩
  rw [hb] at g1 g2
  simp only at g1 g2
  rcases g2 with ⟨t, s', k1, k2⟩ | ⟨t, s', k1, k2, k3⟩
  · cases r with
    | ok v =>
      obtain ⟨cs, m1, m2⟩ := hf v ⟨b1.pending, ⟨a.w.out ++ t, s'⟩⟩ b1 rfl (by rw [g1])
      unfold Run
      simp only [hb, k2, andThen]
      refine ⟨bs ++ cs, by rw [m1, g1]; simp, ?_⟩
      rcases m2 with ⟨t2, s2, n1, n2⟩ | ⟨t2, s2, n1, n2, n3⟩
      · refine Or.inl ⟨t ++ t2, s2, ?_, ?_⟩
        · rw [feedAny_append, k1]
          simp only at n1 ⊢
          rw [n1]
        · dsimp only at n2; rw [n2]; simp
      · refine Or.inr ⟨t ++ t2, s2, ?_, ?_, n3⟩
        · rw [feedAny_append, k1]
          simp only at n1 ⊢
          rw [n1]
        · dsimp only at n2; rw [n2]; simp
    | _ => exact ⟨bs, by simp only [hb, andThen]; exact g1, Or.inl ⟨t, s', k1, by simp only [k2, hb, andThen]⟩⟩
  · rcases ha : X a with ⟨a1, ra⟩
    rw [ha] at k2 k3
    simp only at k2 k3
    subst k3
    cases r with
    | ok v =>
      obtain ⟨cs, m1, m2⟩ := hf v b1 b1 rfl (by rw [g1])
      unfold Run
      simp only [hb, ha, andThen]
      refine ⟨bs ++ cs, by rw [m1, g1]; simp, Or.inr ⟨t, s', ?_, k2, trivial⟩⟩
      rw [feedAny_append, k1]
    | _ => exact ⟨bs, by simp only [hb, andThen]; exact g1, Or.inr ⟨t, s', k1, by simp only [ha, andThen]; exact k2, by simp only [ha, andThen]⟩⟩

theorem flushOne_runs (gen : Work → Res (List Bit)) (work : Work) (crc : BitVec 32) :
    Runs fun bw => flushOne gen work bw crc := by
  simp only [flushOne_eq]
  cases gen work with
  | ok bits => exact andThen_runs _ _ (writeBits_runs bits) fun _ => const_runs _
  | _ => exact const_runs _

theorem flushLoop_runs (gen : Work → Res (List Bit)) (works : List Work) (crc : BitVec 32) :
    Runs fun bw => flushLoop gen works bw crc := by
  induction works generalizing crc with
  | nil => exact const_runs _
  | cons w works ih =>
    have e : (fun bw => flushLoop gen (w :: works) bw crc)
        = fun bw => andThen (flushOne gen w bw crc) fun bw c => flushLoop gen works bw c := by
      funext bw
      rw [flushLoop]
      rcases flushOne gen w bw crc with ⟨b, r⟩
      cases r <;> rfl
    rw [e]
    exact andThen_runs _ _ (flushOne_runs gen w crc) fun c => ih c

theorem mainLoop_runs (gen : Work → Res (List Bit)) (ft : Bool) (t fuel : Nat) (es : List REvent) (fin : Bool)
    (crc : BitVec 32) : Runs fun bw => mainLoop gen ft t fuel es fin bw crc := by
  induction fuel generalizing es fin crc with
  | zero => exact const_runs _
  | succ fuel ih =>
    by_cases hf : fin = true
    · simp only [mainLoop, hf, if_true]
      exact const_runs _
    · obtain rfl : fin = false := by simpa using hf
      cases hs : sendLoop ft t es false with
      | ok x =>
        obtain ⟨works, es', fin'⟩ := x
        have e : (fun bw => mainLoop gen ft t (fuel + 1) es false bw crc)
            = fun bw => andThen (flushLoop gen works bw crc) fun bw c => mainLoop gen ft t fuel es' fin' bw c := by
          funext bw
          simp only [mainLoop, hs, Bool.false_eq_true, if_false]
          rcases flushLoop gen works bw crc with ⟨b, r⟩
          cases r <;> rfl
        rw [e]
        exact andThen_runs _ _ (flushLoop_runs gen works crc) fun c => ih es' fin' c
      | _ =>
        simp only [mainLoop, hs, Bool.false_eq_true, if_false]
        exact const_runs _

theorem feedAny_kept (s : List WEvent) (bs : List UInt8) :
    (feedAny s bs).1 = kept s (bs.map fun b => [b]) ∧ (feedAny s bs).2.2 = !failsWithin s bs.length := by
  induction bs generalizing s with
  | nil => simp [kept, failsWithin]
  | cons b bs ih =>
    match s with
    | [] =>
      have : ∀ l : List UInt8, kept [] (l.map fun b => [b]) = l := by
        intro l
        induction l with
        | nil => rfl
        | cons x l ih => simp [kept, ih]
      rw [this]
      simp [failsWithin]
    | WEvent.fail :: s => simp [feedAny, kept, failsWithin]
    | WEvent.accept k :: s =>
      have := ih s
      simp only [feedAny, kept, List.map_cons]
      rcases hf : feedAny s bs with ⟨t, s', f⟩
      rw [hf] at this
      simp only at this ⊢
      rw [this.1, this.2]
      simp [failsWithin]

/-- The stream encoder on any writer. -/
theorem encodeStreamFuel_any (fuel : Nat) (dist : Distance) (r : Reader) (w : Writer) (t : Nat)
    (strategy : Strategy) :
    ∃ bytes res, encodeStreamFuel fuel dist r Writer.empty t strategy = (⟨bytes, []⟩, res) ∧
      (encodeStreamFuel fuel dist r w t strategy).1.out = w.out ++ kept w.script (bytes.map fun b => [b]) ∧
      (encodeStreamFuel fuel dist r w t strategy).2 = if failsWithin w.script bytes.length then Res.panic else res := by
  have key : Runs fun bw => andThen
      (match bw.writeBits fileHeader with | (bw, r) => (bw, r.unwrap))
      fun bw _ =>
    andThen (mainLoop (fun work => generateBlockData dist strategy work.crc work.rleTotal)
      r.failTail t fuel r.events false bw 0) fun bw crc =>
    andThen (match bw.writeBits (streamFooter crc) with | (bw, r) => (bw, r.unwrap)) fun bw _ =>
    match bw.finalize with | (bw, r) => (bw, r.unwrap) :=
    andThen_runs _ _ (writeBits_runs _) fun _ =>
      andThen_runs _ _ (mainLoop_runs _ _ _ _ _ _ _) fun crc =>
        andThen_runs _ _ (writeBits_runs _) fun _ => finalize_runs
  obtain ⟨bs, g1, g2⟩ := key (BitWriter.fromWriter w) (BitWriter.fromWriter Writer.empty) rfl rfl
  have e0 : (BitWriter.fromWriter Writer.empty).w.out = [] := rfl
  have e1 : (BitWriter.fromWriter w).w = w := rfl
  rw [e0, List.nil_append] at g1
  rw [e1] at g2
  have hk := feedAny_kept w.script bs
  unfold encodeStreamFuel
  refine ⟨bs, _, Prod.ext g1 rfl, ?_⟩
  rcases g2 with ⟨p, s', k1, k2⟩ | ⟨p, s', k1, k2, k3⟩
  · rw [k1] at hk
    simp only at hk
    have : failsWithin w.script bs.length = false := by simpa using hk.2.symm
    rw [this, ← hk.1]
    simp only [k2]
    exact ⟨trivial, rfl⟩
  · rw [k1] at hk
    simp only at hk
    have : failsWithin w.script bs.length = true := by simpa using hk.2.symm
    rw [this, ← hk.1]
    exact ⟨congrArg Writer.out k2, k3⟩

end Ribzip2
