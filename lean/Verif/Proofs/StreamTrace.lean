import Verif.Proofs.StreamGeneral
/- Which of the bytes a reader delivers end up in the blocks, for every reader: errors, ends of file
followed by more data, anything. -/
namespace Ribzip2
open Spec

/-- The script contains no error (but perhaps `Interrupted` results and ends of file anywhere). -/
def FailFree (es : List REvent) : Prop := REvent.fail ∉ es

theorem failFree_tail {e : REvent} {es : List REvent} (h : FailFree (e :: es)) : FailFree es :=
  fun hx => h (by simp [hx])

/-- From the script `es` the bytes `c` were taken and `es'` is left; `c` is a beginning of what the script
delivers, and goes either along with what comes before the first end of file or beyond it. -/
def Taken (es : List REvent) (c : List UInt8) (es' : List REvent) : Prop :=
  FailFree es' ∧ scriptBytes es = c ++ scriptBytes es' ∧
    (delivered es = c ++ delivered es' ∨ delivered es <+: c)

theorem Taken.refl {es : List REvent} (h : FailFree es) : Taken es [] es := ⟨h, by simp, Or.inl (by simp)⟩

theorem Taken.trans {es₁ es₂ es₃ : List REvent} {c₁ c₂ : List UInt8} (h₁ : Taken es₁ c₁ es₂)
    (h₂ : Taken es₂ c₂ es₃) : Taken es₁ (c₁ ++ c₂) es₃ := by
  obtain ⟨-, a2, a3⟩ := h₁
  obtain ⟨b1, b2, b3⟩ := h₂
  refine ⟨b1, by rw [a2, b2]; simp, ?_⟩
  rcases a3 with a3 | a3
  · rcases b3 with b3 | b3
    · exact Or.inl (by rw [a3, b3]; simp)
    · exact Or.inr (by rw [a3]; exact (List.prefix_append_right_inj c₁).2 b3)
  · exact Or.inr (a3.trans (List.prefix_append c₁ c₂))

/-- Beyond the first end of file one stays beyond it. -/
theorem Taken.past {es₁ es₂ es₃ : List REvent} {c₁ c₂ : List UInt8} (h₁ : Taken es₁ c₁ es₂)
    (h₂ : delivered es₂ <+: c₂) : delivered es₁ <+: c₁ ++ c₂ := by
  rcases h₁.2.2 with a3 | a3
  · rw [a3]; exact (List.prefix_append_right_inj c₁).2 h₂
  · exact a3.trans (List.prefix_append c₁ c₂)

theorem readToEnd_bytes (ft : Bool) (es : List REvent) (limit : Nat) :
    scriptBytes es = (readToEnd ft es limit).1 ++ scriptBytes (readToEnd ft es limit).2.1 := by
  induction es generalizing limit with
  | nil => cases limit <;> simp [readToEnd]
  | cons e es ih =>
    cases limit with
    | zero => simp [readToEnd]
    | succ l =>
      cases e with
      | intr => simpa [readToEnd, scriptBytes] using ih (l + 1)
      | fail => simp [readToEnd, scriptBytes]
      | data bs =>
        rw [readToEnd]
        split
        · rename_i hb; simp at hb; simp [scriptBytes, hb]
        · split
          · simp only [scriptBytes]; rw [ih (l + 1 - bs.length)]; simp
          · simp only [scriptBytes]; rw [← List.append_assoc, List.take_append_drop]

theorem readToEnd_taken (es : List REvent) (limit : Nat) (h : FailFree es) :
    (readToEnd false es limit).2.2 = true ∧
    Taken es (readToEnd false es limit).1 (readToEnd false es limit).2.1 ∧
    (1 ≤ limit → (readToEnd false es limit).1 = [] → delivered es = []) := by
  induction es generalizing limit with
  | nil => cases limit <;> simp [readToEnd, Taken.refl h, delivered]
  | cons e es ih =>
    cases limit with
    | zero => exact ⟨by simp [readToEnd], by simpa [readToEnd] using Taken.refl h, by simp⟩
    | succ l =>
      cases e with
      | intr => simpa [readToEnd, Taken, scriptBytes, delivered] using ih (l + 1) (failFree_tail h)
      | fail => exact absurd (by simp) h
      | data bs =>
        rw [readToEnd]
        split
        · rename_i hb
          simp at hb
          subst hb
          exact ⟨rfl, ⟨failFree_tail h, by simp [scriptBytes], Or.inr (by simp [delivered])⟩, by simp [delivered]⟩
        · rename_i hb
          have hne : bs ≠ [] := by simpa using hb
          split
          · obtain ⟨i1, ⟨j1, j2, j3⟩, -⟩ := ih (l + 1 - bs.length) (failFree_tail h)
            refine ⟨i1, ⟨j1, by simp only [scriptBytes]; rw [j2]; simp, ?_⟩, by simp [hne]⟩
            rcases j3 with j3 | j3
            · left; simp only [delivered, hb]; rw [j3]; simp
            · right; simp only [delivered, hb]
              exact (List.prefix_append_right_inj bs).2 j3
          · rename_i hlen
            refine ⟨rfl, ⟨?_, ?_, Or.inl ?_⟩, ?_⟩
            · intro hx
              simp only [List.mem_cons, reduceCtorEq, false_or] at hx
              exact failFree_tail h hx
            · simp only [scriptBytes]; rw [← List.append_assoc, List.take_append_drop]
            · have h2 : bs.drop (l + 1) ≠ [] := by simp; omega
              have h3 : (bs.drop (l + 1)).isEmpty = false := by simpa using h2
              simp only [delivered, hb, h3]
              simp only [Bool.false_eq_true, if_false]
              rw [← List.append_assoc, List.take_append_drop]
            · intro _ h0
              simp only [List.take_eq_nil_iff] at h0
              rcases h0 with h0 | h0
              · omega
              · exact absurd h0 hne

/-- The refill loop appends bytes the script delivers, in order. -/
theorem fillLoop_trace (ft : Bool) (fuel : Nat) (s : FillState) (h : FillInv s) (s' : FillState) (fin : Bool)
    (hr : fillLoop ft fuel s = Res.ok (s', fin)) :
    ∃ c, s'.buf = s.buf ++ c ∧ (c ++ scriptBytes s'.events).Sublist (scriptBytes s.events) ∧
      (ft = false → FailFree s.events → Taken s.events c s'.events ∧
        (fin = true → delivered s.events <+: c)) := by
  induction fuel generalizing s with
  | zero => simp [fillLoop] at hr
  | succ fuel ih =>
    rw [fillLoop] at hr
    split at hr
    · rename_i hlt
      have hR : s.rleData.length ≤ 900000 ∧ 1 ≤ (900000 - s.rleData.length) * 4 / 5 := by
        rw [h.data]
        rw [h.total, rleLimit] at hlt
        by_cases hb : s.buf = []
        · rw [hb]; simp [rle]
        · have := rle_data_lt s.buf hb
          constructor
          · omega
          · have := toTake_pos s.buf s.buf.length (by rw [List.take_length]; exact hlt)
            simp only [rleAt, List.take_length] at this
            omega
      have : subU rleLimit s.rleData.length = Res.ok (900000 - s.rleData.length) := by
        unfold subU rleLimit; rw [if_pos hR.1]
      rw [this, Res.ok_bind] at hr
      have hby := readToEnd_bytes ft s.events ((900000 - s.rleData.length) * 4 / 5)
      have htk := readToEnd_taken s.events ((900000 - s.rleData.length) * 4 / 5)
      have hsz := readToEnd_size ft s.events ((900000 - s.rleData.length) * 4 / 5)
      dsimp only at hr
      cases hft : ft
      all_goals
        rcases hx : readToEnd ft s.events ((900000 - s.rleData.length) * 4 / 5) with ⟨bs, es, ok⟩
        rw [hx] at hby hr hsz
      · rw [hft] at hx hr ih
        rw [hx] at htk
        cases ok with
        | false =>
          simp only [Res.pure_eq, Res.ok.injEq, Prod.mk.injEq] at hr
          obtain ⟨rfl, rfl⟩ := hr
          refine ⟨[], by simp, by simp only [List.nil_append]; rw [hby]; simp, ?_⟩
          intro _ hff
          exact absurd (htk hff).1 (by simp)
        | true =>
          dsimp only at hr
          split at hr
          · rename_i hl
            have hbs : bs = [] := by simpa using hl
            subst hbs
            simp only [Res.pure_eq, Res.ok.injEq, Prod.mk.injEq] at hr
            obtain ⟨rfl, rfl⟩ := hr
            refine ⟨[], by simp, by simp only [List.nil_append]; rw [hby]; simp, ?_⟩
            intro _ hff
            obtain ⟨-, k2, k3⟩ := htk hff
            exact ⟨k2, fun _ => by rw [k3 hR.2 rfl]; exact List.nil_prefix⟩
          · have happ := rle_append s.buf bs
            rw [← h.count, ← h.last, ← h.data] at happ
            simp only at hsz
            obtain ⟨c, c1, c2, c3⟩ := ih _ ⟨by simp only [happ], by simp only [happ], by simp only [happ],
              by simp only [← total_eq, happ, List.length_append],
              size_bound _ _ (by rw [← h.data]; exact hR.1) (by rw [← h.data]; exact hsz.2)⟩ hr
            dsimp only at c1 c2 c3
            refine ⟨bs ++ c, by rw [c1]; simp, ?_, ?_⟩
            · rw [hby, List.append_assoc]
              exact (List.append_sublist_append_left bs).2 c2
            · intro _ hff
              obtain ⟨-, k2, -⟩ := htk hff
              obtain ⟨d1, d2⟩ := c3 rfl k2.1
              exact ⟨k2.trans d1, fun hfin => Taken.past (es₃ := []) k2 (d2 hfin)⟩
      · rw [hft] at hx hr ih
        cases ok with
        | false =>
          simp only [Res.pure_eq, Res.ok.injEq, Prod.mk.injEq] at hr
          obtain ⟨rfl, rfl⟩ := hr
          exact ⟨[], by simp, by simp only [List.nil_append]; rw [hby]; simp, by simp⟩
        | true =>
          dsimp only at hr
          split at hr
          · simp only [Res.pure_eq, Res.ok.injEq, Prod.mk.injEq] at hr
            obtain ⟨rfl, rfl⟩ := hr
            exact ⟨[], by simp, by simp only [List.nil_append]; rw [hby]; simp, by simp⟩
          · have happ := rle_append s.buf bs
            rw [← h.count, ← h.last, ← h.data] at happ
            simp only at hsz
            obtain ⟨c, c1, c2, -⟩ := ih _ ⟨by simp only [happ], by simp only [happ], by simp only [happ],
              by simp only [← total_eq, happ, List.length_append],
              size_bound _ _ (by rw [← h.data]; exact hR.1) (by rw [← h.data]; exact hsz.2)⟩ hr
            dsimp only at c1 c2
            refine ⟨bs ++ c, by rw [c1]; simp, ?_, by simp⟩
            rw [hby, List.append_assoc]
            exact (List.append_sublist_append_left bs).2 c2
    · rename_i hge
      simp only [Res.ok.injEq, Prod.mk.injEq] at hr
      obtain ⟨rfl, rfl⟩ := hr
      exact ⟨[], by simp, by simp, fun _ hff => ⟨Taken.refl hff, by simp⟩⟩

theorem nextBlock_trace (ft : Bool) (es : List REvent) (w : Option Work) (es' : List REvent) (fin : Bool)
    (hr : nextBlock ft es = Res.ok (w, es', fin)) :
    ∃ c, w = (if c = [] then none else some (workOf c)) ∧ (rle1Encode c).length ≤ 900005 ∧
      (c ++ scriptBytes es').Sublist (scriptBytes es) ∧
      (ft = false → FailFree es → Taken es c es' ∧ (fin = true → delivered es <+: c)) := by
  have hinv : FillInv ⟨[], [], 0, 0, none, es⟩ :=
    ⟨rfl, rfl, rfl, by simp [rle1Encode, runs], by simp [rle1Encode, runs]⟩
  obtain ⟨s, f, h1, h2⟩ := fillLoop_total ft (eventsSize es + 2) ⟨[], [], 0, 0, none, es⟩ hinv
    (by dsimp only; omega)
  obtain ⟨c, c1, c2, c3⟩ := fillLoop_trace ft _ _ hinv _ _ h1
  simp only [List.nil_append] at c1
  rw [nextBlock, h1, Res.ok_bind] at hr
  dsimp only at hr c2 c3
  have hsize := h2.size
  rw [c1] at hsize
  split at hr
  · rename_i hb
    simp only [Res.pure_eq, Res.ok.injEq, Prod.mk.injEq] at hr
    obtain ⟨rfl, rfl, rfl⟩ := hr
    have : c = [] := by rw [← c1]; simpa using hb
    exact ⟨c, by simp [this], hsize, c2, c3⟩
  · rename_i hb
    simp only [Res.pure_eq, Res.ok.injEq, Prod.mk.injEq] at hr
    obtain ⟨rfl, rfl, rfl⟩ := hr
    have hne : c ≠ [] := by intro h; rw [c1, h] at hb; simp at hb
    refine ⟨c, ?_, hsize, c2, c3⟩
    rw [if_neg hne]
    have := rle_eq s.buf
    rw [← h2.data, ← h2.count, ← h2.last] at this
    rw [this, c1]; rfl

theorem sendLoop_trace (ft : Bool) (k : Nat) (es : List REvent) (fin : Bool) (ws : List Work)
    (es' : List REvent) (fin' : Bool) (hr : sendLoop ft k es fin = Res.ok (ws, es', fin')) :
    ∃ bs : List (List UInt8), ws = bs.map workOf ∧
      (∀ b ∈ bs, b ≠ [] ∧ (rle1Encode b).length ≤ 900005) ∧
      (bs.flatten ++ scriptBytes es').Sublist (scriptBytes es) ∧
      (ft = false → FailFree es → Taken es bs.flatten es' ∧
        (fin = false → fin' = true → delivered es <+: bs.flatten)) := by
  induction k generalizing es fin ws with
  | zero =>
    simp only [sendLoop, Res.ok.injEq, Prod.mk.injEq] at hr
    obtain ⟨rfl, rfl, rfl⟩ := hr
    exact ⟨[], rfl, by simp, by simp, fun _ hff => ⟨Taken.refl hff, by rintro rfl; simp⟩⟩
  | succ k ih =>
    rw [sendLoop] at hr
    rcases hn : nextBlock ft es with ⟨w, es1, f⟩ | _ | _ | _ <;>
      simp only [hn, Res.ok_bind, Res.err_bind, Res.panic_bind, Res.div_bind, reduceCtorEq] at hr
    obtain ⟨c, c1, c2, c3, c4⟩ := nextBlock_trace ft es w es1 f hn
    by_cases hc : c = []
    · subst hc
      simp only [if_true] at c1
      subst c1
      simp only [Res.pure_eq, Res.ok.injEq, Prod.mk.injEq] at hr
      obtain ⟨rfl, rfl, rfl⟩ := hr
      refine ⟨[], rfl, by simp, by simpa using c3, fun hft hff => ?_⟩
      obtain ⟨d1, d2⟩ := c4 hft hff
      exact ⟨d1, fun h0 h1 => d2 (by simpa [h0] using h1)⟩
    · rw [if_neg hc] at c1
      subst c1
      dsimp only at hr
      rcases hs : sendLoop ft k es1 (fin || f) with ⟨ws2, es2, f2⟩ | _ | _ | _ <;>
        simp only [hs, Res.ok_bind, Res.err_bind, Res.panic_bind, Res.div_bind, reduceCtorEq] at hr
      simp only [Res.pure_eq, Res.ok.injEq, Prod.mk.injEq] at hr
      obtain ⟨rfl, rfl, rfl⟩ := hr
      obtain ⟨bs, b1, b2, b3, b4⟩ := ih _ _ _ hs
      refine ⟨c :: bs, by simp [b1], ?_, ?_, ?_⟩
      · intro x hx
        rcases List.mem_cons.1 hx with rfl | hx
        · exact ⟨hc, c2⟩
        · exact b2 x hx
      · simp only [List.flatten_cons, List.append_assoc]
        exact ((List.append_sublist_append_left c).2 b3).trans c3
      · intro hft hff
        obtain ⟨d1, d2⟩ := c4 hft hff
        obtain ⟨e1, e2⟩ := b4 hft d1.1
        refine ⟨by simpa using d1.trans e1, fun h0 h1 => ?_⟩
        simp only [List.flatten_cons]
        cases hf : f with
        | true => exact (d2 hf).trans (List.prefix_append _ _)
        | false => exact Taken.past (es₃ := []) d1 (e2 (by simp [h0, hf]) h1)

theorem mainLoop_trace (gen : Work → Res (List Bit)) (ft : Bool) (t fuel : Nat) (es : List REvent)
    (fin : Bool) (bw bw' : BitWriter) (crc crc' : BitVec 32)
    (h : mainLoop gen ft t fuel es fin bw crc = (bw', Res.ok crc')) :
    ∃ bs : List (List UInt8), flushLoop gen (bs.map workOf) bw crc = (bw', Res.ok crc') ∧
      (∀ b ∈ bs, b ≠ [] ∧ (rle1Encode b).length ≤ 900005) ∧
      bs.flatten.Sublist (scriptBytes es) ∧
      (ft = false → FailFree es → bs.flatten <+: scriptBytes es ∧
        (fin = false → delivered es <+: bs.flatten)) := by
  induction fuel generalizing es fin bw crc with
  | zero => simp [mainLoop] at h
  | succ fuel ih =>
    rw [mainLoop] at h
    split at h
    · rename_i hfin
      exact ⟨[], h, by simp, by simp, fun _ _ => ⟨by simp, by simp [hfin]⟩⟩
    · rename_i hfin
      obtain ⟨_, es', fin', h1, -⟩ := sendLoop_total ft t es fin
      obtain ⟨bs, b1, b2, b3, b4⟩ := sendLoop_trace _ _ _ _ _ _ _ h1
      rw [h1] at h
      rw [b1] at h
      dsimp only at h
      rcases hfl : flushLoop gen (bs.map workOf) bw crc with ⟨bw1, r⟩
      rw [hfl] at h
      cases r with
      | ok c =>
        obtain ⟨bs', i1, i2, i3, i4⟩ := ih _ _ _ _ h
        refine ⟨bs ++ bs', ?_, ?_, ?_, ?_⟩
        · rw [List.map_append, flushLoop_append, hfl]; exact i1
        · intro b hb
          rcases List.mem_append.1 hb with hb | hb
          · exact b2 b hb
          · exact i2 b hb
        · simp only [List.flatten_append]
          exact ((List.append_sublist_append_left _).2 i3).trans b3
        · intro hft hff
          obtain ⟨d1, d2⟩ := b4 hft hff
          obtain ⟨e1, e2⟩ := i4 hft d1.1
          simp only [List.flatten_append]
          refine ⟨by rw [d1.2.1]; exact (List.prefix_append_right_inj _).2 e1, fun h0 => ?_⟩
          cases hf : fin' with
          | true => exact (d2 h0 hf).trans (List.prefix_append _ _)
          | false => exact Taken.past (es₃ := []) d1 (e2 hf)
      | err => simp at h
      | panic => simp at h
      | div => simp at h

/-- Whatever the reader does: if `encode_stream` ends normally, the blocks it has written hold bytes that
were delivered, in order, each at most once; and if no read failed, they hold a beginning of everything
delivered that includes all bytes before the first end of file. -/
theorem encodeStreamFuel_trace (fuel : Nat) (dist : Distance) (r : Reader) (w w' : Writer) (t : Nat)
    (strategy : Strategy) (h : encodeStreamFuel fuel dist r w t strategy = (w', Res.ok ())) :
    ∃ bs : List (List UInt8), encodeBlocks dist strategy bs w = (w', Res.ok ()) ∧
      (∀ b ∈ bs, b ≠ [] ∧ (rle1Encode b).length ≤ 900005) ∧
      bs.flatten.Sublist (scriptBytes r.events) ∧
      (r.failTail = false → FailFree r.events → bs.flatten <+: scriptBytes r.events ∧
        delivered r.events <+: bs.flatten) := by
  unfold encodeStreamFuel at h
  unfold encodeBlocks
  rcases h1 : (BitWriter.fromWriter w).writeBits fileHeader with ⟨bw, rr⟩
  rw [h1] at h
  simp only [andThen_eq] at h ⊢
  cases rr with
  | ok a =>
    simp only [Res.unwrap_ok] at h ⊢
    rcases h2 : mainLoop (fun work => generateBlockData dist strategy work.crc work.rleTotal)
      r.failTail t fuel r.events false bw 0 with ⟨bw1, r1⟩
    rw [h2] at h
    cases r1 with
    | ok crc =>
      obtain ⟨bs, i1, i2, i3, i4⟩ := mainLoop_trace _ _ _ _ _ _ _ _ _ _ h2
      refine ⟨bs, ?_, i2, i3, fun hft hff => ⟨(i4 hft hff).1, (i4 hft hff).2 rfl⟩⟩
      rw [i1]
      exact h
    | err => simp at h
    | panic => simp at h
    | div => simp at h
  | err => simp at h
  | panic => simp at h
  | div => simp at h

end Ribzip2
