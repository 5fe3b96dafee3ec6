import Verif.Spec.Cli
import Verif.Proofs.WriterFollow
/- `BufWriter<File>` as the writer of the stream encoder. -/
namespace Ribzip2
open Spec

/-! ### flush -/

theorem flushBuf_content (s : List FEvent) (out buf : List UInt8) :
    (flushBuf s out buf).1.out ++ (flushBuf s out buf).1.buf = out ++ buf ∧
    out <+: (flushBuf s out buf).1.out ∧
    ((flushBuf s out buf).2 = true → (flushBuf s out buf).1.buf = []) ∧
    (flushBuf s out buf).1.buf.length ≤ buf.length := by
  fun_induction flushBuf s out buf with
  | case1 s out => simp
  | case2 out b buf => simp
  | case3 s out b buf => simp
  | case4 k s out b buf hk ih =>
    obtain ⟨h1, h2, h3, h4⟩ := ih
    refine ⟨?_, ?_, h3, ?_⟩
    · rw [h1, List.append_assoc, List.take_append_drop]
    · exact (List.prefix_append _ _).trans h2
    · have : ((b :: buf).drop k).length ≤ (b :: buf).length := by simp
      omega
  | case5 s out b buf ih => exact ih
  | case6 s out b buf => simp

/-- Whether a flush succeeds, and what it leaves, depends on the length of the buffer only. -/
theorem flushBuf_shape (s : List FEvent) (out buf out' buf' : List UInt8) (h : buf.length = buf'.length) :
    (flushBuf s out buf).2 = (flushBuf s out' buf').2 ∧
    (flushBuf s out buf).1.script = (flushBuf s out' buf').1.script ∧
    (flushBuf s out buf).1.buf.length = (flushBuf s out' buf').1.buf.length := by
  induction s generalizing out buf out' buf' with
  | nil =>
    match buf, buf', h with
    | [], [], _ => simp [flushBuf]
    | _ :: _, _ :: _, _ => simp [flushBuf]
  | cons e s ih =>
    match buf, buf', h with
    | [], [], _ => simp [flushBuf]
    | b :: buf, b' :: buf', h =>
      cases e with
      | accept k =>
        simp only [flushBuf]
        by_cases hk : k = 0
        · simp [hk]; simpa using h
        · simp only [if_neg hk]
          exact ih _ _ _ _ (by rw [List.length_drop, List.length_drop, h])
      | intr => exact ih _ _ _ _ h
      | fail => simp [flushBuf]; simpa using h

/-- A flush of a buffer that is not empty uses at least one event, if there is one. -/
theorem flushBuf_script (s : List FEvent) (out buf : List UInt8) :
    (flushBuf s out buf).1.script.length ≤ s.length ∧
    (buf ≠ [] → s ≠ [] → (flushBuf s out buf).1.script.length < s.length) := by
  fun_induction flushBuf s out buf with
  | case1 s out => simp
  | case2 out b buf => simp
  | case3 s out b buf => simp
  | case4 k s out b buf hk ih => simp only [List.length_cons]; exact ⟨by omega, fun _ _ => by omega⟩
  | case5 s out b buf ih => simp only [List.length_cons]; exact ⟨by omega, fun _ _ => by omega⟩
  | case6 s out b buf => simp

theorem flushBuf_reliable (out buf : List UInt8) : flushBuf [] out buf = (⟨out ++ buf, [], []⟩, true) := by
  cases buf <;> simp [flushBuf]

theorem flushBuf_noError (s : List FEvent) (out buf : List UInt8) (h : NoFileError s) :
    (flushBuf s out buf).2 = true ∧ NoFileError (flushBuf s out buf).1.script := by
  fun_induction flushBuf s out buf with
  | case1 s out => exact ⟨rfl, h⟩
  | case2 out b buf => exact ⟨rfl, by intro e he; simp at he⟩
  | case3 s out b buf => exact absurd rfl (h _ (by simp)).2
  | case4 k s out b buf hk ih => exact ih fun e he => h e (by simp [he])
  | case5 s out b buf ih => exact ih fun e he => h e (by simp [he])
  | case6 s out b buf => exact absurd rfl (h _ (by simp)).1

/-! ### push -/

/-- The state of a `BufWriter` up to the bytes. -/
def Alike (f g : BufFile) : Prop := f.script = g.script ∧ f.buf.length = g.buf.length

theorem push_alike (f g : BufFile) (b c : UInt8) (h : Alike f g) :
    Alike (f.push b).1 (g.push c).1 ∧ (f.push b).2 = (g.push c).2 := by
  unfold BufFile.push
  rw [h.2]
  split
  · exact ⟨⟨h.1, by simp [h.2]⟩, rfl⟩
  · obtain ⟨h1, h2, h3⟩ := flushBuf_shape f.script f.out f.buf g.out g.buf h.2
    rw [h.1] at h1 h2 h3
    rw [h.1]
    generalize flushBuf g.script f.out f.buf = x at h1 h2 h3 ⊢
    generalize flushBuf g.script g.out g.buf = y at h1 h2 h3 ⊢
    obtain ⟨f1, o1⟩ := x
    obtain ⟨g1, o2⟩ := y
    simp only at h1 h2 h3
    subst h1
    cases o1
    · exact ⟨⟨h2, h3⟩, rfl⟩
    · exact ⟨⟨h2, rfl⟩, rfl⟩

theorem push_content (f : BufFile) (b : UInt8) :
    f.out <+: (f.push b).1.out ∧
    (f.buf.length ≤ bufCapacity → (f.push b).1.buf.length ≤ bufCapacity) ∧
    (f.push b).1.out ++ (f.push b).1.buf = f.out ++ f.buf ++ (if (f.push b).2 then [b] else []) := by
  unfold BufFile.push
  split
  · simp only [if_true]
    refine ⟨List.prefix_refl _, ?_, by simp⟩
    intro _
    simp only [List.length_append, List.length_singleton]
    omega
  · obtain ⟨h1, h2, h3, h4⟩ := flushBuf_content f.script f.out f.buf
    generalize flushBuf f.script f.out f.buf = x at *
    obtain ⟨f1, o⟩ := x
    simp only at h1 h2 h3 h4
    cases o
    · simp only [Bool.false_eq_true, if_false, List.append_nil]
      exact ⟨h2, by omega, h1⟩
    · simp only [if_true]
      have := h3 rfl
      rw [this, List.append_nil] at h1
      exact ⟨h2, by simp [bufCapacity], by rw [h1]⟩

theorem push_reliable (f : BufFile) (b : UInt8) (h : f.script = []) :
    (f.push b).2 = true ∧ (f.push b).1.script = [] := by
  unfold BufFile.push
  split
  · exact ⟨rfl, h⟩
  · rw [h, flushBuf_reliable]; exact ⟨rfl, rfl⟩

theorem push_noError (f : BufFile) (b : UInt8) (h : NoFileError f.script) :
    (f.push b).2 = true ∧ NoFileError (f.push b).1.script := by
  unfold BufFile.push
  split
  · exact ⟨rfl, h⟩
  · obtain ⟨h1, h2⟩ := flushBuf_noError f.script f.out f.buf h
    generalize flushBuf f.script f.out f.buf = x at *
    obtain ⟨f1, o⟩ := x
    simp only at h1 h2
    subst h1
    exact ⟨rfl, h2⟩

/-- How many more one-byte writes can happen before the script is used up. -/
def BufFile.potential (f : BufFile) : Nat := f.script.length * (bufCapacity + 1) + (bufCapacity - f.buf.length)

theorem push_potential (f : BufFile) (b : UInt8) (hs : f.script ≠ []) :
    (f.push b).1.script = [] ∨ (f.push b).2 = false ∨ (f.push b).1.potential < f.potential := by
  unfold BufFile.push BufFile.potential
  split
  · refine Or.inr (Or.inr ?_)
    simp only [List.length_append, List.length_singleton]
    omega
  · rename_i hc
    have hne : f.buf ≠ [] := by
      intro he
      rw [he] at hc
      simp [bufCapacity] at hc
    have h1 := (flushBuf_script f.script f.out f.buf).2 hne hs
    generalize flushBuf f.script f.out f.buf = x at *
    obtain ⟨f1, o⟩ := x
    simp only at h1
    cases o
    · exact Or.inr (Or.inl rfl)
    · refine Or.inr (Or.inr ?_)
      simp only [List.length_singleton]
      have : f1.script.length + 1 ≤ f.script.length := h1
      have := Nat.mul_le_mul_right (bufCapacity + 1) this
      rw [Nat.add_mul] at this
      omega

/-! ### pushAll -/

theorem pushAll_append (f : BufFile) (bs cs : List UInt8) (h : (f.pushAll bs).2 = true) :
    f.pushAll (bs ++ cs) = (f.pushAll bs).1.pushAll cs := by
  induction bs generalizing f with
  | nil => rfl
  | cons b bs ih =>
    simp only [List.cons_append, BufFile.pushAll] at h ⊢
    generalize f.push b = x at *
    obtain ⟨f1, o⟩ := x
    cases o
    · simp at h
    · exact ih f1 h

theorem pushAll_content (f : BufFile) (bs : List UInt8) (h : (f.pushAll bs).2 = true) :
    (f.pushAll bs).1.out ++ (f.pushAll bs).1.buf = f.out ++ f.buf ++ bs ∧
    (f.buf.length ≤ bufCapacity → (f.pushAll bs).1.buf.length ≤ bufCapacity) := by
  induction bs generalizing f with
  | nil => simp [BufFile.pushAll]
  | cons b bs ih =>
    simp only [BufFile.pushAll] at h ⊢
    obtain ⟨-, h2, h3⟩ := push_content f b
    generalize f.push b = x at *
    obtain ⟨f1, o⟩ := x
    simp only at h2 h3
    cases o
    · simp at h
    · obtain ⟨i1, i2⟩ := ih f1 h
      simp only at i1 i2 ⊢
      refine ⟨?_, fun hf => i2 (h2 hf)⟩
      rw [i1, h3]
      simp

theorem pushAll_noError (f : BufFile) (bs : List UInt8) (h : NoFileError f.script) :
    (f.pushAll bs).2 = true ∧ NoFileError (f.pushAll bs).1.script := by
  induction bs generalizing f with
  | nil => exact ⟨rfl, h⟩
  | cons b bs ih =>
    obtain ⟨h1, h2⟩ := push_noError f b h
    simp only [BufFile.pushAll]
    generalize f.push b = x at *
    obtain ⟨f1, o⟩ := x
    simp only at h1 h2
    subst h1
    exact ih f1 h2

theorem pushAll_short (f : BufFile) (bs : List UInt8) (h : f.buf.length + bs.length ≤ bufCapacity) :
    f.pushAll bs = (⟨f.out, f.script, f.buf ++ bs⟩, true) := by
  induction bs generalizing f with
  | nil => simp [BufFile.pushAll]
  | cons b bs ih =>
    simp only [List.length_cons] at h
    simp only [BufFile.pushAll, BufFile.push]
    rw [if_pos (by omega)]
    simp only
    rw [ih _ (by simp; omega)]
    simp

/-! ### answers -/

theorem answers_length (n : Nat) (f : BufFile) : (f.answers n).length = n := by
  induction n generalizing f with
  | zero => rfl
  | succ n ih =>
    simp only [BufFile.answers]
    rcases f.push 0 with ⟨f1, o⟩
    cases o <;> simp [ih]

theorem answers_noZero (n : Nat) (f : BufFile) : NoZeroWrite (f.answers n) := by
  induction n generalizing f with
  | zero => intro e he; simp [BufFile.answers] at he
  | succ n ih =>
    simp only [BufFile.answers]
    rcases f.push 0 with ⟨f1, o⟩
    cases o <;>
    · intro e he
      simp only [List.mem_cons] at he
      rcases he with rfl | he
      · simp
      · exact ih _ e he

theorem feed_length (s : List WEvent) (bs t : List UInt8) (s' : List WEvent) (ok : Bool)
    (h : feed s bs = (t, s', ok)) : (ok = true → s.length ≤ s'.length + t.length) ∧
      (ok = false → s.length = s'.length + t.length + 1) := by
  induction bs generalizing s t with
  | nil => simp at h; obtain ⟨rfl, rfl, rfl⟩ := h; simp
  | cons b bs ih =>
    match s with
    | [] => simp at h; obtain ⟨rfl, rfl, rfl⟩ := h; simp
    | WEvent.fail :: s => simp [feed] at h; obtain ⟨rfl, rfl, rfl⟩ := h; simp
    | WEvent.accept k :: s =>
      simp only [feed] at h
      rcases hf : feed s bs with ⟨t2, s2, f2⟩
      rw [hf] at h
      simp only [Prod.mk.injEq] at h
      obtain ⟨rfl, rfl, rfl⟩ := h
      have := ih s t2 hf
      simp only [List.length_cons]
      exact ⟨fun hh => by have := this.1 hh; omega, fun hh => by have := this.2 hh; omega⟩

theorem feed_strict (s : List WEvent) (bs t : List UInt8) (s' : List WEvent)
    (h : feed s bs = (t, s', false)) : t.length < bs.length := by
  induction bs generalizing s t with
  | nil => simp at h
  | cons b bs ih =>
    match s with
    | [] => simp at h
    | WEvent.fail :: s => simp [feed] at h; simp [h.1]
    | WEvent.accept k :: s =>
      simp only [feed] at h
      rcases hf : feed s bs with ⟨t2, s2, f2⟩
      rw [hf] at h
      simp only [Prod.mk.injEq] at h
      obtain ⟨rfl, rfl, rfl⟩ := h
      have := ih s t2 hf
      simp only [List.length_cons]
      omega

/-- Enough answers describe a `BufWriter` completely. -/
theorem answers_feed (n : Nat) (f g : BufFile) (bs t : List UInt8) (s' : List WEvent) (ok : Bool)
    (ha : Alike f g) (hn : f.script = [] ∨ f.potential ≤ n) (h : feed (f.answers n) bs = (t, s', ok)) :
    (g.pushAll t).2 = true ∧ (ok = true → t = bs) ∧
      (ok = false → (((g.pushAll t).1).push 0).2 = false) := by
  induction bs generalizing n f g t with
  | nil => simp at h; obtain ⟨rfl, rfl, rfl⟩ := h; simp [BufFile.pushAll]
  | cons b bs ih =>
    obtain ⟨a1, a2⟩ := push_alike f g 0 b ha
    have hcase : ∀ (f1 : BufFile) (n1 : Nat) (t1 : List UInt8),
        f.push 0 = (f1, true) → feed (f1.answers n1) bs = (t1, s', ok) → (f1.script = [] ∨ f1.potential ≤ n1) →
        (g.pushAll (b :: t1)).2 = true ∧ (ok = true → b :: t1 = b :: bs) ∧
          (ok = false → (((g.pushAll (b :: t1)).1).push 0).2 = false) := by
      intro f1 n1 t1 e1 e2 e3
      rw [e1] at a1 a2
      simp only [BufFile.pushAll]
      rcases hg : g.push b with ⟨g1, o⟩
      rw [hg] at a1 a2
      simp only at a1 a2
      subst a2
      obtain ⟨i1, i2, i3⟩ := ih n1 f1 g1 t1 a1 e3 e2
      exact ⟨i1, fun hh => by rw [i2 hh], i3⟩
    cases n with
    | zero =>
      have hs : f.script = [] := by
        rcases hn with hn | hn
        · exact hn
        · unfold BufFile.potential bufCapacity at hn
          exact List.length_eq_zero_iff.1 (by omega)
      simp only [BufFile.answers, feed_reliable, Prod.mk.injEq] at h
      obtain ⟨rfl, rfl, rfl⟩ := h
      obtain ⟨p1, p2⟩ := push_reliable f 0 hs
      rcases hp : f.push 0 with ⟨f1, o⟩
      rw [hp] at p1 p2
      simp only at p1 p2
      subst p1
      exact hcase f1 0 bs hp (by simp [BufFile.answers]) (Or.inl p2)
    | succ n =>
      have hpot : (f.push 0).1.script = [] ∨ (f.push 0).2 = false ∨ (f.push 0).1.potential ≤ n := by
        by_cases hs : f.script = []
        · exact Or.inl (push_reliable f 0 hs).2
        · rcases push_potential f 0 hs with h1 | h1 | h1
          · exact Or.inl h1
          · exact Or.inr (Or.inl h1)
          · rcases hn with hn | hn
            · exact absurd hn hs
            · exact Or.inr (Or.inr (by omega))
      simp only [BufFile.answers] at h
      rcases hp : f.push 0 with ⟨f1, o⟩
      rw [hp] at h hpot
      simp only at hpot
      cases o with
      | true =>
        simp only [feed] at h
        rcases hf : feed (f1.answers n) bs with ⟨t1, s1, o1⟩
        rw [hf] at h
        simp only [Prod.mk.injEq] at h
        obtain ⟨rfl, rfl, rfl⟩ := h
        exact hcase f1 n t1 hp hf (by simpa using hpot)
      | false =>
        simp only [feed, Prod.mk.injEq] at h
        obtain ⟨rfl, rfl, rfl⟩ := h
        refine ⟨rfl, by simp, fun _ => ?_⟩
        have := (push_alike f g 0 0 ha).2
        rw [hp] at this
        exact this.symm

theorem enough_ok (s : List FEvent) : (⟨[], s, []⟩ : BufFile).potential ≤ (⟨[], s, []⟩ : BufFile).enough := by
  unfold BufFile.potential BufFile.enough
  rw [Nat.add_mul]
  simp only [List.length_nil]
  omega

/-! ### The outcome of `compress` -/

/-- How `compress` ends for a result of the library. -/
def outcomeOf : Res Unit → Outcome
  | Res.ok _ => Outcome.ok
  | Res.div => Outcome.div
  | _ => Outcome.panic

/-- What `compress` leaves in the file, and how it ends, in terms of the library on a reliable writer. -/
theorem compressData_cases (dist : Distance) (r : Reader) (threads : Nat) (strategy : Strategy)
    (script : List FEvent) :
    ∃ bytes res, encodeStream dist r Writer.empty threads strategy = (⟨bytes, []⟩, res) ∧
      ((((⟨[], script, []⟩ : BufFile).pushAll bytes).2 = true ∧
        compressData dist r threads strategy script =
          (if res = Res.div then ((⟨[], script, []⟩ : BufFile).pushAll bytes).1.out
            else ((⟨[], script, []⟩ : BufFile).pushAll bytes).1.drop.out, outcomeOf res)) ∨
      (∃ t, t <+: bytes ∧ t.length < bytes.length ∧ ((⟨[], script, []⟩ : BufFile).pushAll t).2 = true ∧
        (((⟨[], script, []⟩ : BufFile).pushAll t).1.push 0).2 = false ∧
        compressData dist r threads strategy script =
          ((((⟨[], script, []⟩ : BufFile).pushAll t).1.push 0).1.drop.out, Outcome.panic))) := by
  unfold compressData encodeStream
  generalize hf : (⟨[], script, []⟩ : BufFile) = f
  obtain ⟨bytes, res, h0, h1⟩ := encodeStreamFuel_follows (eventsSize r.events + r.events.length + 2) dist r
    ⟨[], f.answers f.enough⟩ threads strategy (answers_noZero _ _)
  refine ⟨bytes, res, h0, ?_⟩
  have hpot : f.script = [] ∨ f.potential ≤ f.enough := by rw [← hf]; exact Or.inr (enough_ok script)
  simp only [List.nil_append] at h1
  rcases h1 with ⟨s', k1, k2⟩ | ⟨t, s', k1, k2⟩
  · obtain ⟨b1, -, -⟩ := answers_feed f.enough f f bytes bytes s' true ⟨rfl, rfl⟩ hpot k1
    have hl := (feed_length _ _ _ _ _ k1).1 rfl
    rw [answers_length] at hl
    refine Or.inl ⟨b1, ?_⟩
    simp only [k2]
    cases res with
    | ok u => simp [outcomeOf]
    | div => simp [outcomeOf]
    | err => simp only; rw [if_neg (by omega)]; simp [outcomeOf]
    | panic => simp only; rw [if_neg (by omega)]; simp [outcomeOf]
  · obtain ⟨b1, -, b3⟩ := answers_feed f.enough f f bytes t s' false ⟨rfl, rfl⟩ hpot k1
    have hl := (feed_length _ _ _ _ _ k1).2 rfl
    rw [answers_length] at hl
    refine Or.inr ⟨t, feed_prefix _ _ _ _ _ k1, feed_strict _ _ _ _ k1, b1, b3 rfl, ?_⟩
    simp only [k2]
    rw [if_pos (by omega)]

theorem drop_content (f : BufFile) :
    f.drop.out ++ f.drop.buf = f.out ++ f.buf ∧ f.out <+: f.drop.out ∧ f.drop.buf.length ≤ f.buf.length := by
  obtain ⟨h1, h2, -, h4⟩ := flushBuf_content f.script f.out f.buf
  exact ⟨h1, h2, h4⟩

theorem drop_noError (f : BufFile) (h : NoFileError f.script) : f.drop.out = f.out ++ f.buf := by
  obtain ⟨h1, -, h3, -⟩ := flushBuf_content f.script f.out f.buf
  have := h3 (flushBuf_noError f.script f.out f.buf h).1
  unfold BufFile.drop
  rw [← h1, this, List.append_nil]

/-- Whatever happens, the file holds a prefix of the compressed stream. If the program ends normally at
most the last 8192 bytes are missing. -/
theorem compressData_prefix (dist : Distance) (r : Reader) (threads : Nat) (strategy : Strategy)
    (script : List FEvent) :
    ∃ bytes res, encodeStream dist r Writer.empty threads strategy = (⟨bytes, []⟩, res) ∧
      (compressData dist r threads strategy script).1 <+: bytes ∧
      ((compressData dist r threads strategy script).2 = Outcome.ok → res = Res.ok () ∧
        ∃ lost, bytes = (compressData dist r threads strategy script).1 ++ lost ∧ lost.length ≤ bufCapacity) := by
  obtain ⟨bytes, res, h0, h1⟩ := compressData_cases dist r threads strategy script
  refine ⟨bytes, res, h0, ?_⟩
  rcases h1 with ⟨k1, k2⟩ | ⟨t, k0, k4, k1, k2, k3⟩
  · obtain ⟨c1, c2⟩ := pushAll_content _ _ k1
    simp only [List.nil_append, List.length_nil, Nat.zero_le, forall_const] at c1 c2
    generalize (⟨[], script, []⟩ : BufFile).pushAll bytes = x at *
    obtain ⟨d1, d2, d3⟩ := drop_content x.1
    rw [k2]
    refine ⟨?_, ?_⟩
    · simp only
      split
      · exact ⟨_, c1⟩
      · rw [← c1, ← d1]; exact List.prefix_append _ _
    · intro ho
      cases res with
      | ok u => exact ⟨rfl, x.1.drop.buf, by simp only [reduceCtorEq, if_false]; rw [d1, c1], by omega⟩
      | _ => simp [outcomeOf] at ho
  · obtain ⟨c1, c2⟩ := pushAll_content _ _ k1
    simp only [List.nil_append, List.length_nil, Nat.zero_le, forall_const] at c1 c2
    generalize (⟨[], script, []⟩ : BufFile).pushAll t = x at *
    obtain ⟨-, -, p3⟩ := push_content x.1 0
    rw [k2] at p3
    simp only [Bool.false_eq_true, if_false, List.append_nil] at p3
    obtain ⟨d1, d2, d3⟩ := drop_content (x.1.push 0).1
    rw [k3]
    refine ⟨?_, by simp⟩
    simp only
    refine List.IsPrefix.trans ?_ k0
    rw [← c1, ← p3, ← d1]
    exact List.prefix_append _ _

theorem compressData_noError (dist : Distance) (r : Reader) (threads : Nat) (strategy : Strategy)
    (script : List FEvent) (h : NoFileError script) :
    ∃ bytes res, encodeStream dist r Writer.empty threads strategy = (⟨bytes, []⟩, res) ∧
      (compressData dist r threads strategy script).2 = outcomeOf res ∧
      (res ≠ Res.div → (compressData dist r threads strategy script).1 = bytes) := by
  obtain ⟨bytes, res, h0, h1⟩ := compressData_cases dist r threads strategy script
  refine ⟨bytes, res, h0, ?_⟩
  rcases h1 with ⟨k1, k2⟩ | ⟨t, k0, k4, k1, k2, k3⟩
  · obtain ⟨c1, -⟩ := pushAll_content _ _ k1
    have c3 := (pushAll_noError ⟨[], script, []⟩ bytes h).2
    simp only [List.nil_append] at c1
    generalize (⟨[], script, []⟩ : BufFile).pushAll bytes = x at *
    rw [k2]
    refine ⟨rfl, fun hd => ?_⟩
    simp only [if_neg hd]
    rw [drop_noError _ c3, c1]
  · have c3 := (pushAll_noError ⟨[], script, []⟩ t h).2
    have := (push_noError _ 0 c3).1
    rw [this] at k2
    exact absurd k2 (by simp)

/-- A stream that fits into the buffer: if the first write fails, nothing reaches the file and the
program ends normally. -/
theorem compressData_small_fail (dist : Distance) (r : Reader) (threads : Nat) (strategy : Strategy)
    (rest : List FEvent) (bytes : List UInt8) (hlen : bytes.length ≤ bufCapacity)
    (h : encodeStream dist r Writer.empty threads strategy = (⟨bytes, []⟩, Res.ok ())) :
    compressData dist r threads strategy (FEvent.fail :: rest) = ([], Outcome.ok) := by
  obtain ⟨bytes', res, h0, h1⟩ := compressData_cases dist r threads strategy (FEvent.fail :: rest)
  rw [h] at h0
  simp only [Prod.mk.injEq, Writer.mk.injEq] at h0
  obtain ⟨⟨rfl, -⟩, rfl⟩ := h0
  rcases h1 with ⟨k1, k2⟩ | ⟨t, k0, k4, k1, k2, k3⟩
  · rw [k2, pushAll_short _ _ (by simpa using hlen)]
    simp only [reduceCtorEq, if_false, outcomeOf, BufFile.drop, List.nil_append]
    cases bytes <;> simp [flushBuf]
  · rw [pushAll_short _ _ (by simp only [List.length_nil]; omega)] at k2
    exfalso
    simp only [BufFile.push, List.nil_append] at k2
    rw [if_pos (by omega)] at k2
    simp at k2

end Ribzip2
