import Verif.Proofs.StreamWriter
import Verif.Proofs.GenNoDiv
/- The exact behaviour of the stream encoder on a writer that may fail: it does the same as on a reliable
writer up to the first error, then panics. -/
namespace Ribzip2
open Spec

/-- One-byte writes until the first error: the bytes taken, the rest of the script, no error occurred. -/
def feed : List WEvent → List UInt8 → List UInt8 × List WEvent × Bool
  | s, [] => ([], s, true)
  | [], b :: bs => (b :: bs, [], true)
  | WEvent.accept _ :: s, b :: bs => match feed s bs with | (t, s', f) => (b :: t, s', f)
  | WEvent.fail :: s, _ :: _ => ([], s, false)

@[simp] theorem feed_nil (s : List WEvent) : feed s [] = ([], s, true) := by cases s <;> rfl

@[simp] theorem feed_reliable (bs : List UInt8) : feed [] bs = (bs, [], true) := by cases bs <;> rfl

theorem feed_true (s : List WEvent) (bs t : List UInt8) (s' : List WEvent) (h : feed s bs = (t, s', true)) :
    t = bs := by
  induction bs generalizing s t with
  | nil => simp at h; exact h.1
  | cons b bs ih =>
    match s with
    | [] => simp at h; exact h.1.symm
    | WEvent.fail :: s => simp [feed] at h
    | WEvent.accept k :: s =>
      simp only [feed] at h
      rcases hf : feed s bs with ⟨t2, s2, f2⟩
      rw [hf] at h
      simp only [Prod.mk.injEq] at h
      obtain ⟨rfl, rfl, rfl⟩ := h
      rw [ih s t2 hf]

theorem feed_prefix (s : List WEvent) (bs t : List UInt8) (s' : List WEvent) (f : Bool)
    (h : feed s bs = (t, s', f)) : t <+: bs := by
  induction bs generalizing s t with
  | nil => simp at h; simp [h.1]
  | cons b bs ih =>
    match s with
    | [] => simp at h; simp [← h.1]
    | WEvent.fail :: s => simp [feed] at h; simp [h.1]
    | WEvent.accept k :: s =>
      simp only [feed] at h
      rcases hf : feed s bs with ⟨t2, s2, f2⟩
      rw [hf] at h
      simp only [Prod.mk.injEq] at h
      obtain ⟨rfl, rfl, rfl⟩ := h
      exact List.prefix_cons_inj b |>.2 (ih s t2 hf)

theorem feed_script (s : List WEvent) (bs t : List UInt8) (s' : List WEvent) (f : Bool)
    (h : feed s bs = (t, s', f)) : ∀ e ∈ s', e ∈ s := by
  induction bs generalizing s t with
  | nil => simp at h; rw [h.2.1]; exact fun e he => he
  | cons b bs ih =>
    match s with
    | [] => simp at h; simp [← h.2.1]
    | WEvent.fail :: s => simp [feed] at h; rw [← h.2.1]; intro e he; simp [he]
    | WEvent.accept k :: s =>
      simp only [feed] at h
      rcases hf : feed s bs with ⟨t2, s2, f2⟩
      rw [hf] at h
      simp only [Prod.mk.injEq] at h
      obtain ⟨rfl, rfl, rfl⟩ := h
      intro e he
      exact List.mem_cons_of_mem _ (ih s t2 hf e he)

theorem feed_append (s : List WEvent) (bs cs : List UInt8) : feed s (bs ++ cs) =
    match feed s bs with
    | (t, s', true) => (match feed s' cs with | (t2, s2, f) => (t ++ t2, s2, f))
    | (t, s', false) => (t, s', false) := by
  induction bs generalizing s with
  | nil => simp
  | cons b bs ih =>
    match s with
    | [] => simp
    | WEvent.fail :: s => simp [feed]
    | WEvent.accept k :: s =>
      simp only [List.cons_append, feed, ih s]
      rcases feed s bs with ⟨t, s', f⟩
      cases f
      · rfl
      · simp only
        rcases feed s' cs with ⟨t2, s2, f2⟩
        rfl

theorem feed_accepts (acc : List Nat) (rest : List WEvent) (bs : List UInt8) :
    feed (acc.map WEvent.accept ++ WEvent.fail :: rest) bs =
      (bs.take acc.length, (feed (acc.map WEvent.accept ++ WEvent.fail :: rest) bs).2.1,
        !decide (acc.length < bs.length)) := by
  induction bs generalizing acc with
  | nil => simp
  | cons b bs ih =>
    cases acc with
    | nil => simp [feed]
    | cons k acc =>
      have := ih acc
      simp only [List.map_cons, List.cons_append, feed]
      rw [this]
      simp

/-- What `X` does to a writer `a`, compared with a reliable writer `b` that has received the same. -/
def Follow {α : Type} (X : BitWriter → BitWriter × Res α) (pre : List UInt8) (a b : BitWriter) : Prop :=
  ∃ bs, (X b).1.w = ⟨b.w.out ++ bs, []⟩ ∧
    ((∃ s', feed a.w.script bs = (bs, s', true) ∧
        X a = (⟨(X b).1.pending, ⟨pre ++ (b.w.out ++ bs), s'⟩⟩, (X b).2)) ∨
     (∃ t s', feed a.w.script bs = (t, s', false) ∧ (X a).1.w = ⟨pre ++ (b.w.out ++ t), s'⟩ ∧
        (X a).2 = Res.panic))

def Follows {α : Type} (X : BitWriter → BitWriter × Res α) : Prop :=
  ∀ pre a b, Tracks pre a b → Follow X pre a b

theorem write_follow (wa wb : Writer) (pre : List UInt8) (x : UInt8) (h1 : wa.out = pre ++ wb.out)
    (h2 : NoZeroWrite wa.script) :
    (∃ s', feed wa.script [x] = ([x], s', true) ∧ wa.write [x] = (⟨pre ++ (wb.out ++ [x]), s'⟩, Res.ok ())) ∨
    (∃ s', feed wa.script [x] = ([], s', false) ∧ wa.write [x] = (⟨pre ++ wb.out, s'⟩, Res.err)) := by
  obtain ⟨outA, sa⟩ := wa
  simp only at h1; subst h1
  match sa with
  | [] => exact Or.inl ⟨[], by simp, by simp [Writer.write]⟩
  | WEvent.fail :: sa => exact Or.inr ⟨sa, by simp [feed], by simp [Writer.write]⟩
  | WEvent.accept k :: sa =>
    have : k ≠ 0 := by
      intro hk; subst hk; exact h2 _ (by simp) rfl
    obtain ⟨k, rfl⟩ : ∃ m, k = m + 1 := ⟨k - 1, by omega⟩
    exact Or.inl ⟨sa, by simp [feed], by simp [Writer.write]⟩

theorem writeChunks_follow (pre : List UInt8) (p : List Bit) (wa wb : Writer) (l : List Bit)
    (h1 : wa.out = pre ++ wb.out) (h2 : NoZeroWrite wa.script) (h3 : wb.script = []) :
    ∃ bs rest, writeChunks p wb l = (⟨rest, ⟨wb.out ++ bs, []⟩⟩, Res.ok ()) ∧
      ((∃ s', feed wa.script bs = (bs, s', true) ∧
        writeChunks p wa l = (⟨rest, ⟨pre ++ (wb.out ++ bs), s'⟩⟩, Res.ok ())) ∨
       (∃ t s', feed wa.script bs = (t, s', false) ∧
        writeChunks p wa l = (⟨p, ⟨pre ++ (wb.out ++ t), s'⟩⟩, Res.err))) := by
  have hnil : ∀ l : List Bit, writeChunks p wb l = (⟨l, wb⟩, Res.ok ()) →
      writeChunks p wa l = (⟨l, wa⟩, Res.ok ()) →
      ∃ bs rest, writeChunks p wb l = (⟨rest, ⟨wb.out ++ bs, []⟩⟩, Res.ok ()) ∧
      ((∃ s', feed wa.script bs = (bs, s', true) ∧
        writeChunks p wa l = (⟨rest, ⟨pre ++ (wb.out ++ bs), s'⟩⟩, Res.ok ())) ∨
       (∃ t s', feed wa.script bs = (t, s', false) ∧
        writeChunks p wa l = (⟨p, ⟨pre ++ (wb.out ++ t), s'⟩⟩, Res.err))) := by
    intro l e1 e2
    refine ⟨[], l, ?_, Or.inl ⟨wa.script, by simp, ?_⟩⟩
    · rw [e1, List.append_nil, ← h3]
    · rw [e2, List.append_nil, ← h1]
  induction h : l.length using Nat.strongRecOn generalizing l wa wb with
  | _ n ih =>
    match l with
    | b0 :: b1 :: b2 :: b3 :: b4 :: b5 :: b6 :: b7 :: rest =>
      clear hnil
      simp only [writeChunks]
      generalize hx : UInt8.ofNat (convertToNumber [b0, b1, b2, b3, b4, b5, b6, b7]) = x
      have e1 : wb.write [x] = (⟨wb.out ++ [x], []⟩, Res.ok ()) := by simp [Writer.write, h3]
      rw [e1]
      simp only
      rcases write_follow wa wb pre x h1 h2 with ⟨s', f1, f2⟩ | ⟨s', f1, f2⟩
      · rw [f2]
        simp only
        have hnz : NoZeroWrite s' := fun e he => h2 e (feed_script _ _ _ _ _ f1 e he)
        obtain ⟨bs, r, g1, g2⟩ := ih rest.length (by simp at h; omega) ⟨pre ++ (wb.out ++ [x]), s'⟩
          ⟨wb.out ++ [x], []⟩ rest rfl hnz rfl (by
            intro l e1 e2
            refine ⟨[], l, ?_, Or.inl ⟨s', by simp, ?_⟩⟩
            · rw [e1, List.append_nil]
            · rw [e2, List.append_nil]) rfl
        have hf : feed wa.script (x :: bs) = match feed s' bs with | (t2, s2, f) => (x :: t2, s2, f) := by
          have := feed_append wa.script [x] bs
          rw [f1] at this
          simpa using this
        refine ⟨x :: bs, r, by rw [g1]; simp, ?_⟩
        rcases g2 with ⟨s2, k1, k2⟩ | ⟨t, s2, k1, k2⟩
        · refine Or.inl ⟨s2, by rw [hf]; simp only at k1; rw [k1], by rw [k2]; simp⟩
        · refine Or.inr ⟨x :: t, s2, by rw [hf]; simp only at k1; rw [k1], by rw [k2]; simp⟩
      · rw [f2]
        simp only
        obtain ⟨bs, r, g1, -⟩ := ih rest.length (by simp at h; omega) ⟨pre ++ (wb.out ++ [x]), []⟩
          ⟨wb.out ++ [x], []⟩ rest rfl (by intro e he; simp at he) rfl (by
            intro l e1 e2
            refine ⟨[], l, ?_, Or.inl ⟨[], by simp, ?_⟩⟩
            · rw [e1, List.append_nil]
            · rw [e2, List.append_nil]) rfl
        have hf : feed wa.script (x :: bs) = ([], s', false) := by
          have := feed_append wa.script [x] bs
          rw [f1] at this
          simpa using this
        exact ⟨x :: bs, r, by rw [g1]; simp, Or.inr ⟨[], s', hf, by simp⟩⟩
    | [] => exact hnil _ rfl rfl
    | [_] => exact hnil _ rfl rfl
    | [_, _] => exact hnil _ rfl rfl
    | [_, _, _] => exact hnil _ rfl rfl
    | [_, _, _, _] => exact hnil _ rfl rfl
    | [_, _, _, _, _] => exact hnil _ rfl rfl
    | [_, _, _, _, _, _] => exact hnil _ rfl rfl
    | [_, _, _, _, _, _, _] => exact hnil _ rfl rfl

theorem writeBits_follows (l : List Bit) :
    Follows fun bw => match bw.writeBits l with | (bw, r) => (bw, r.unwrap) := by
  intro pre a b h
  unfold Follow BitWriter.writeBits
  dsimp only
  rw [h.pending]
  obtain ⟨bs, rest, g1, g2⟩ := writeChunks_follow pre (b.pending ++ l) a.w b.w (b.pending ++ l) h.out h.nz h.rel
  simp only [g1]
  refine ⟨bs, rfl, ?_⟩
  rcases g2 with ⟨s', k1, k2⟩ | ⟨t, s', k1, k2⟩
  · exact Or.inl ⟨s', k1, by rw [k2]⟩
  · exact Or.inr ⟨t, s', k1, by rw [k2], by rw [k2]; rfl⟩

theorem finalize_follows : Follows fun bw => match bw.finalize with | (bw, r) => (bw, r.unwrap) := by
  intro pre a b h
  unfold Follow BitWriter.finalize
  dsimp only
  rw [h.pending]
  split
  · refine ⟨[], ?_, Or.inl ⟨a.w.script, by simp, ?_⟩⟩
    · obtain ⟨pb, out, s⟩ := b
      have := h.rel
      simp only at this
      simp [this]
    · have e : a = ⟨b.pending, ⟨pre ++ (b.w.out ++ []), a.w.script⟩⟩ := by
        rw [List.append_nil, ← h.out, ← h.pending]
      simp only [Res.unwrap_ok, Prod.mk.injEq, and_true]
      exact e
  · generalize UInt8.ofNat _ = x
    have e1 : b.w.write [x] = (⟨b.w.out ++ [x], []⟩, Res.ok ()) := by simp [Writer.write, h.rel]
    simp only [e1]
    refine ⟨[x], rfl, ?_⟩
    rcases write_follow a.w b.w pre x h.out h.nz with ⟨s', f1, f2⟩ | ⟨s', f1, f2⟩
    · exact Or.inl ⟨s', f1, by rw [f2]⟩
    · exact Or.inr ⟨[], s', f1, by rw [f2]; simp, by rw [f2]; rfl⟩

theorem const_follows {α : Type} (r : Res α) : Follows fun bw => (bw, r) := by
  intro pre a b h
  refine ⟨[], ?_, Or.inl ⟨a.w.script, by simp, ?_⟩⟩
  · obtain ⟨pb, out, s⟩ := b
    have := h.rel
    simp only at this
    simp [this]
  · simp only [List.append_nil, ← h.out, ← h.pending]

theorem andThen_follows {α β : Type} (X : BitWriter → BitWriter × Res α)
    (f : BitWriter → α → BitWriter × Res β) (hX : Follows X) (hf : ∀ v, Follows fun bw => f bw v) :
    Follows fun bw => andThen (X bw) f := by
  intro pre a b h
  obtain ⟨bs, g1, g2⟩ := hX pre a b h
  rcases hb : X b with ⟨b1, r⟩
  rw [hb] at g1 g2
  simp only at g1 g2
  rcases g2 with ⟨s', k1, k2⟩ | ⟨t, s', k1, k2, k3⟩
  · have hnz : NoZeroWrite s' := fun e he => h.nz e (feed_script _ _ _ _ _ k1 e he)
    cases r with
    | ok v =>
      obtain ⟨cs, m1, m2⟩ := hf v pre ⟨b1.pending, ⟨pre ++ (b.w.out ++ bs), s'⟩⟩ b1
        ⟨rfl, by rw [g1], hnz, by rw [g1]⟩
      unfold Follow
      simp only [hb, k2, andThen]
      refine ⟨bs ++ cs, by rw [m1, g1]; simp, ?_⟩
      rcases m2 with ⟨s2, n1, n2⟩ | ⟨t, s2, n1, n2, n3⟩
      · refine Or.inl ⟨s2, ?_, ?_⟩
        · rw [feed_append, k1]
          simp only at n1 ⊢
          rw [n1]
        · dsimp only at n2; rw [n2, g1]; simp
      · refine Or.inr ⟨bs ++ t, s2, ?_, ?_, n3⟩
        · rw [feed_append, k1]
          simp only at n1 ⊢
          rw [n1]
        · dsimp only at n2; rw [n2, g1]; simp
    | err => exact ⟨bs, by simp only [hb, andThen]; exact g1, Or.inl ⟨s', k1, by simp only [k2, hb, andThen]⟩⟩
    | panic => exact ⟨bs, by simp only [hb, andThen]; exact g1, Or.inl ⟨s', k1, by simp only [k2, hb, andThen]⟩⟩
    | div => exact ⟨bs, by simp only [hb, andThen]; exact g1, Or.inl ⟨s', k1, by simp only [k2, hb, andThen]⟩⟩
  · rcases ha : X a with ⟨a1, ra⟩
    rw [ha] at k2 k3
    simp only at k2 k3
    subst k3
    cases r with
    | ok v =>
      obtain ⟨cs, m1, m2⟩ := hf v [] b1 b1 ⟨rfl, rfl, by rw [g1]; intro e he; simp at he, by rw [g1]⟩
      unfold Follow
      simp only [hb, ha, andThen]
      refine ⟨bs ++ cs, by rw [m1, g1]; simp, Or.inr ⟨t, s', ?_, k2, trivial⟩⟩
      rw [feed_append, k1]
    | err => exact ⟨bs, by simp only [hb, andThen]; exact g1, Or.inr ⟨t, s', k1, by simp only [ha, andThen]; exact k2, by simp only [ha, andThen]⟩⟩
    | panic => exact ⟨bs, by simp only [hb, andThen]; exact g1, Or.inr ⟨t, s', k1, by simp only [ha, andThen]; exact k2, by simp only [ha, andThen]⟩⟩
    | div => exact ⟨bs, by simp only [hb, andThen]; exact g1, Or.inr ⟨t, s', k1, by simp only [ha, andThen]; exact k2, by simp only [ha, andThen]⟩⟩

theorem flushOne_eq (gen : Work → Res (List Bit)) (work : Work) (bw : BitWriter) (crc : BitVec 32) :
    flushOne gen work bw crc = match gen work with
      | Res.ok bits => andThen (match bw.writeBits bits with | (bw, r) => (bw, r.unwrap))
          fun bw _ => (bw, Res.ok (combineCrc crc work.crc))
      | Res.div => (bw, Res.div)
      | _ => (bw, Res.panic) := by
  unfold flushOne
  cases gen work with
  | ok bits =>
    simp only
    have := writeBits_ne_div bw bits
    rcases hw : bw.writeBits bits with ⟨b, r⟩
    rw [hw] at this
    cases r with
    | div => exact absurd rfl this
    | _ => rfl
  | _ => rfl

theorem flushOne_follows (gen : Work → Res (List Bit)) (work : Work) (crc : BitVec 32) :
    Follows fun bw => flushOne gen work bw crc := by
  simp only [flushOne_eq]
  cases gen work with
  | ok bits => exact andThen_follows _ _ (writeBits_follows bits) fun _ => const_follows _
  | _ => exact const_follows _

theorem flushLoop_follows (gen : Work → Res (List Bit)) (works : List Work) (crc : BitVec 32) :
    Follows fun bw => flushLoop gen works bw crc := by
  induction works generalizing crc with
  | nil => exact const_follows _
  | cons w works ih =>
    have e : (fun bw => flushLoop gen (w :: works) bw crc)
        = fun bw => andThen (flushOne gen w bw crc) fun bw c => flushLoop gen works bw c := by
      funext bw
      rw [flushLoop]
      rcases flushOne gen w bw crc with ⟨b, r⟩
      cases r <;> rfl
    rw [e]
    exact andThen_follows _ _ (flushOne_follows gen w crc) fun c => ih c

theorem mainLoop_follows (gen : Work → Res (List Bit)) (ft : Bool) (t fuel : Nat) (es : List REvent) (fin : Bool)
    (crc : BitVec 32) : Follows fun bw => mainLoop gen ft t fuel es fin bw crc := by
  induction fuel generalizing es fin crc with
  | zero => exact const_follows _
  | succ fuel ih =>
    by_cases hf : fin = true
    · simp only [mainLoop, hf, if_true]
      exact const_follows _
    · obtain rfl : fin = false := by simpa using hf
      cases hs : sendLoop ft t es false with
      | ok x =>
        obtain ⟨works, es', fin'⟩ := x
        have e : (fun bw => mainLoop gen ft t (fuel + 1) es false bw crc)
            = fun bw => andThen (flushLoop gen works bw crc) fun bw c => mainLoop gen ft t fuel es' fin' bw c := by
          funext bw
          simp only [mainLoop, hs, Bool.false_eq_true, if_false]
          rcases flushLoop gen works bw crc with ⟨b, r⟩
          cases r <;> rfl
        rw [e]
        exact andThen_follows _ _ (flushLoop_follows gen works crc) fun c => ih es' fin' c
      | _ =>
        simp only [mainLoop, hs, Bool.false_eq_true, if_false]
        exact const_follows _

/-- The stream encoder on any writer that never answers `Ok(0)`: the same as on a reliable writer if no
write fails before all bytes are written, otherwise exactly the bytes before the error reach the writer
and the encoder panics. -/
theorem encodeStreamFuel_follows (fuel : Nat) (dist : Distance) (r : Reader) (w : Writer) (t : Nat)
    (strategy : Strategy) (hw : NoZeroWrite w.script) :
    ∃ bytes res, encodeStreamFuel fuel dist r Writer.empty t strategy = (⟨bytes, []⟩, res) ∧
      ((∃ s', feed w.script bytes = (bytes, s', true) ∧
          encodeStreamFuel fuel dist r w t strategy = (⟨w.out ++ bytes, s'⟩, res)) ∨
       (∃ pre s', feed w.script bytes = (pre, s', false) ∧
          encodeStreamFuel fuel dist r w t strategy = (⟨w.out ++ pre, s'⟩, Res.panic))) := by
  have key : Follows fun bw => andThen
      (match bw.writeBits fileHeader with | (bw, r) => (bw, r.unwrap))
      fun bw _ =>
    andThen (mainLoop (fun work => generateBlockData dist strategy work.crc work.rleTotal)
      r.failTail t fuel r.events false bw 0) fun bw crc =>
    andThen (match bw.writeBits (streamFooter crc) with | (bw, r) => (bw, r.unwrap)) fun bw _ =>
    match bw.finalize with | (bw, r) => (bw, r.unwrap) :=
    andThen_follows _ _ (writeBits_follows _) fun _ =>
      andThen_follows _ _ (mainLoop_follows _ _ _ _ _ _ _) fun crc =>
        andThen_follows _ _ (writeBits_follows _) fun _ => finalize_follows
  obtain ⟨bs, g1, g2⟩ := key w.out (BitWriter.fromWriter w) (BitWriter.fromWriter Writer.empty)
    ⟨rfl, by simp [BitWriter.fromWriter, Writer.empty], hw, rfl⟩
  have e0 : (BitWriter.fromWriter Writer.empty).w.out = [] := rfl
  rw [e0, List.nil_append] at g1
  simp only [e0, List.nil_append] at g2
  unfold encodeStreamFuel
  refine ⟨bs, _, Prod.ext g1 rfl, ?_⟩
  rcases g2 with ⟨s', k1, k2⟩ | ⟨p, s', k1, k2, k3⟩
  · exact Or.inl ⟨s', k1, by simp only [k2]⟩
  · exact Or.inr ⟨p, s', k1, Prod.ext k2 k3⟩

end Ribzip2
