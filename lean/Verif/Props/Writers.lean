import Verif.Proofs.WriterAny
import Verif.Proofs.Decoder
import Verif.Props.Decode
import Verif.Props.Cli
/- Properties C36 and C37 for every writer: what exactly arrives. -/
namespace Ribzip2
open Spec

theorem kept_length (script : List WEvent) (bufs : List (List UInt8)) :
    (kept script bufs).length ≤ bufs.flatten.length := by
  induction bufs generalizing script with
  | nil => simp [kept]
  | cons b bufs ih =>
    match script with
    | [] => have := ih []; simp [kept] at this ⊢; omega
    | WEvent.accept k :: s => have := ih s; simp [kept] at this ⊢; omega
    | WEvent.fail :: s => simp [kept]

theorem kept_all_iff (script : List WEvent) (bufs : List (List UInt8)) :
    (failsWithin script bufs.length = false ∧ kept script bufs = bufs.flatten) ↔ TakesAll script bufs := by
  induction bufs generalizing script with
  | nil => simp [kept, failsWithin, TakesAll]
  | cons b bufs ih =>
    match script with
    | [] =>
      have h1 := (ih []).2 (by intro i e buf he; simp at he)
      simp [kept, failsWithin, TakesAll, h1.2]
    | WEvent.fail :: s =>
      simp only [kept, failsWithin, List.length_cons, List.take_succ_cons, List.contains_cons, beq_self_eq_true, Bool.true_or,
        Bool.true_eq_false, false_and, false_iff]
      intro h
      obtain ⟨k, hk, -⟩ := h 0 WEvent.fail b rfl rfl
      simp at hk
    | WEvent.accept k :: s =>
      have h2 : TakesAll (WEvent.accept k :: s) (b :: bufs) ↔ b.length ≤ k ∧ TakesAll s bufs := by
        constructor
        · intro h
          refine ⟨?_, fun i e buf he hb => h (i + 1) e buf (by simpa using he) (by simpa using hb)⟩
          obtain ⟨k', hk, hl⟩ := h 0 _ b rfl rfl
          simp only [WEvent.accept.injEq] at hk
          omega
        · rintro ⟨h1, h2⟩ i e buf he hb
          cases i with
          | zero =>
            simp only [List.getElem?_cons_zero, Option.some.injEq] at he hb
            subst he; subst hb
            exact ⟨k, rfl, h1⟩
          | succ i => exact h2 i e buf (by simpa using he) (by simpa using hb)
      rw [h2, ← ih s]
      have h3 : failsWithin (WEvent.accept k :: s) (b :: bufs).length = failsWithin s bufs.length := by
        simp [failsWithin]
      rw [h3]
      simp only [kept, List.flatten_cons]
      constructor
      · rintro ⟨g1, g2⟩
        have hl := congrArg List.length g2
        simp only [List.length_append, List.length_take] at hl
        have hk := kept_length s bufs
        have hb : b.length ≤ k := by omega
        rw [List.take_of_length_le hb] at g2
        exact ⟨hb, g1, List.append_cancel_left g2⟩
      · rintro ⟨g1, g2, g3⟩
        exact ⟨g2, by rw [List.take_of_length_le g1, g3]⟩

/-- **C37, for every writer.** Whatever the writer does (also answering `Ok(0)`, also failing now and then), it receives
of the bytes a reliable writer would receive, offered one by one, exactly those it takes, up to the first error;
and `encode_stream` ends as with the reliable writer unless a write failed. -/
theorem C37_every_writer (dist : Distance) (r : Reader) (t : Nat) (strategy : Strategy) :
    ∃ bytes res, encodeStream dist r Writer.empty t strategy = (⟨bytes, []⟩, res) ∧ ∀ w : Writer,
      (encodeStream dist r w t strategy).1.out = w.out ++ kept w.script (bytes.map fun b => [b]) ∧
      (encodeStream dist r w t strategy).2 = if failsWithin w.script bytes.length then Res.panic else res := by
  obtain ⟨bytes, res, h1, -⟩ := encodeStreamFuel_any (eventsSize r.events + r.events.length + 2) dist r Writer.empty t
    strategy
  refine ⟨bytes, res, h1, fun w => ?_⟩
  obtain ⟨bytes', res', k1, k2, k3⟩ := encodeStreamFuel_any (eventsSize r.events + r.events.length + 2) dist r w t strategy
  rw [h1] at k1
  simp only [Prod.mk.injEq, Writer.mk.injEq, and_true] at k1
  obtain ⟨rfl, rfl⟩ := k1
  exact ⟨k2, k3⟩

/-- **C37, exactly when**: when the encoder succeeds with a reliable writer, it succeeds with another one and that one
has everything exactly if it takes the byte in each of the write calls. -/
theorem C37_complete_iff (dist : Distance) (r : Reader) (t : Nat) (strategy : Strategy) (bytes : List UInt8)
    (h : encodeStream dist r Writer.empty t strategy = (⟨bytes, []⟩, Res.ok ())) (w : Writer) :
    ((encodeStream dist r w t strategy).2 = Res.ok () ∧ (encodeStream dist r w t strategy).1.out = w.out ++ bytes) ↔
      ∀ e ∈ w.script.take bytes.length, ∃ k, e = WEvent.accept k ∧ 1 ≤ k := by
  obtain ⟨bytes', res, h1, h2⟩ := C37_every_writer dist r t strategy
  rw [h] at h1
  simp only [Prod.mk.injEq, Writer.mk.injEq, and_true] at h1
  obtain ⟨rfl, rfl⟩ := h1
  obtain ⟨k1, k2⟩ := h2 w
  have hfl : ∀ l : List UInt8, (l.map fun b => [b]).flatten = l := by
    intro l
    induction l with
    | nil => rfl
    | cons b l ih => simp [ih]
  have hiff := kept_all_iff w.script (bytes.map fun b => [b])
  rw [hfl bytes, List.length_map] at hiff
  have hl : ((encodeStream dist r w t strategy).2 = Res.ok () ∧ (encodeStream dist r w t strategy).1.out = w.out ++ bytes) ↔
      (failsWithin w.script bytes.length = false ∧ kept w.script (bytes.map fun b => [b]) = bytes) := by
    rw [k1, k2]
    cases failsWithin w.script bytes.length <;> simp
  rw [hl, hiff]
  constructor
  · intro ht e he
    obtain ⟨i, hi, hie⟩ := List.getElem_of_mem he
    have hi' : i < w.script.length ∧ i < bytes.length := by simp at hi; omega
    rw [List.getElem_take] at hie
    obtain ⟨k, e1, e2⟩ := ht i e [bytes[i]'hi'.2] (by rw [List.getElem?_eq_getElem hi'.1, hie]) (by simp [hi'.2])
    exact ⟨k, e1, by simpa using e2⟩
  · intro ht i e buf he hb
    have hib : i < bytes.length := by
      by_contra hge
      rw [List.getElem?_eq_none (by simp; omega)] at hb
      simp at hb
    obtain ⟨k, e1, e2⟩ := ht e (by
      refine List.mem_of_getElem? (i := i) ?_
      rw [List.getElem?_take, if_pos hib, he])
    refine ⟨k, e1, ?_⟩
    simp only [List.getElem?_map, List.getElem?_eq_getElem hib, Option.map_some, Option.some.injEq] at hb
    rw [← hb]
    simpa using e2

theorem writeAll_kept (w : Writer) (ds : List (List UInt8)) :
    (writeAll w ds).1.out = w.out ++ kept w.script ds ∧
    (writeAll w ds).2 = if failsWithin w.script ds.length then Res.err else Res.ok () := by
  induction ds generalizing w with
  | nil => simp [writeAll, kept, failsWithin]
  | cons d ds ih =>
    obtain ⟨out, s⟩ := w
    match s with
    | [] =>
      have := ih ⟨out ++ d, []⟩
      simp only [writeAll, Writer.write, kept]
      simpa [failsWithin] using this
    | WEvent.accept k :: s =>
      have := ih ⟨out ++ d.take k, s⟩
      simp only [writeAll, Writer.write, kept]
      simpa [failsWithin] using this
    | WEvent.fail :: s => simp [writeAll, Writer.write, kept, failsWithin]

/-- **C36, for every writer.** Whatever the reader delivers, the decoder makes one write per block; a writer receives
of each block exactly what it takes in that one call, up to the first error; and the result is that with a
reliable writer unless a write failed, which gives an error. -/
theorem C36_every_writer (r : Reader) :
    ∃ blocks : List (List UInt8), (decodeStream r Writer.empty).1.out = blocks.flatten ∧ ∀ w : Writer,
      (decodeStream r w).1.out = w.out ++ kept w.script blocks ∧
      (decodeStream r w).2 = (if failsWithin w.script blocks.length then Res.err else (decodeStream r Writer.empty).2) ∧
      ((decodeStream r Writer.empty).2 = Res.ok () →
        (((decodeStream r w).2 = Res.ok () ∧ (decodeStream r w).1.out = w.out ++ blocks.flatten) ↔
          TakesAll w.script blocks)) := by
  have hE : decodeStream r Writer.empty = (⟨(pStream (bytesBits (delivered r.events))).1.flatten, []⟩,
      (pStream (bytesBits (delivered r.events))).2) := by
    have := decodeStream_reliable r []
    simpa [Writer.empty] using this
  refine ⟨(pStream (bytesBits (delivered r.events))).1, by rw [hE], fun w => ?_⟩
  have hw := decodeStream_eq r w
  rw [hE]
  generalize pStream (bytesBits (delivered r.events)) = y at *
  obtain ⟨ds, res⟩ := y
  obtain ⟨k1, k2⟩ := writeAll_kept w ds
  have hiff := kept_all_iff w.script ds
  have h1 : (decodeStream r w).1.out = w.out ++ kept w.script ds := by
    rw [hw, ← k1]
    rcases writeAll w ds with ⟨w', rr⟩
    cases rr <;> rfl
  have h2 : (decodeStream r w).2 = if failsWithin w.script ds.length then Res.err else res := by
    rw [hw]
    rcases hx : writeAll w ds with ⟨w', rr⟩
    rw [hx] at k2
    simp only at k2 ⊢
    cases hf : failsWithin w.script ds.length <;> rw [hf] at k2 <;> simp at k2 <;> subst k2 <;> simp
  refine ⟨h1, h2, fun hres => ?_⟩
  simp only at hres
  subst hres
  rw [h1, h2, ← hiff]
  cases failsWithin w.script ds.length <;> simp

/-- **C50, for every behaviour of the file.** When `decompress` has opened both files, the output file holds of each
block what the one `write` call for it took, up to the first failing or interrupted call; the status is 0 exactly if
the library succeeds with a reliable writer and no call failed or was interrupted. -/
theorem C50_every_file (env : ArgEnv) (p : Path) (w w' : World) (ha : Alone env) (o : Outcome)
    (ho : o ≠ Outcome.fileError) (h : Command.decompress.one env p w = (w', o)) :
    ∃ i blocks, w.fs.dir p = some i ∧
      (decodeStream (env.reader (w.fs.data i)) Writer.empty).1.out = blocks.flatten ∧
      contentAt w'.fs (decompressName p) = some (kept (env.script.map FEvent.toWEvent) blocks) ∧
      (o = Outcome.ok ↔ (decodeStream (env.reader (w.fs.data i)) Writer.empty).2 = Res.ok () ∧
        failsWithin (env.script.map FEvent.toWEvent) blocks.length = false) := by
  obtain ⟨i, h1, -, h3, h4⟩ := decompress_one env p w w' o ho ha h
  obtain ⟨blocks, b1, b2⟩ := C36_every_writer (env.reader (w.fs.data i))
  obtain ⟨k1, k2, -⟩ := b2 ⟨[], env.script.map FEvent.toWEvent⟩
  refine ⟨i, blocks, h1, b1, ?_, ?_⟩
  · rw [h3, ← List.nil_append (kept _ _), ← k1]
    unfold decompressData
    rcases decodeStream (env.reader (w.fs.data i)) ⟨[], env.script.map FEvent.toWEvent⟩ with ⟨w1, r1⟩
    cases r1 <;> rfl
  · rw [← h4]
    unfold decompressData
    rcases hd : decodeStream (env.reader (w.fs.data i)) ⟨[], env.script.map FEvent.toWEvent⟩ with ⟨w1, r1⟩
    rw [hd] at k2
    simp only at k2
    cases hf : failsWithin (env.script.map FEvent.toWEvent) blocks.length <;> rw [hf] at k2 <;> simp at k2 <;> subst k2
    · cases (decodeStream (env.reader (w.fs.data i)) Writer.empty).2 <;> simp
    · simp

/-- A writer that takes one byte less than offered of one block: exactly that byte is lost. -/
example : (decodeStream (Reader.ofBytes sampleAB) ⟨[], [WEvent.accept 1]⟩).1.out = kept [WEvent.accept 1] [[97, 98]] := by
  decide +kernel

example : kept [WEvent.accept 1, WEvent.accept 0, WEvent.fail] [[1, 2], [3], [4], [5]] = [1] := by decide

example : TakesAll [WEvent.accept 2, WEvent.accept 7] [[1, 2], [3], [4]] := by
  intro i e buf h1 h2
  match i with
  | 0 => simp at h1 h2; subst h1; subst h2; exact ⟨2, rfl, by simp⟩
  | 1 => simp at h1 h2; subst h1; subst h2; exact ⟨7, rfl, by simp⟩
  | i + 2 => simp at h1

end Ribzip2
