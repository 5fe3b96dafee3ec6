import Verif.Proofs.StreamSticky
import Verif.Proofs.StreamTrace
/- What read errors cost: every error loses at most the bytes delivered directly before it, in the same
refill. -/
namespace Ribzip2
open Spec

theorem Spec.KeepsAllBut.append {m : Nat} {h₁ h₂ : List (Option UInt8)} {c₁ c₂ : List UInt8}
    (a : KeepsAllBut m h₁ c₁) (b : KeepsAllBut m h₂ c₂) : KeepsAllBut m (h₁ ++ h₂) (c₁ ++ c₂) := by
  induction a with
  | done => exact b
  | keep x _ ih => exact KeepsAllBut.keep x ih
  | error lost hl _ ih =>
    rw [List.append_assoc, List.cons_append]
    exact KeepsAllBut.error lost hl ih

theorem Spec.KeepsAllBut.all (m : Nat) (bs : List UInt8) : KeepsAllBut m (bs.map some) bs := by
  induction bs with
  | nil => exact KeepsAllBut.done
  | cons b bs ih => exact KeepsAllBut.keep b ih

/-- Number of bytes kept: all but at most `m` per error. -/
theorem Spec.KeepsAllBut.length {m : Nat} {hs : List (Option UInt8)} {c : List UInt8} (h : KeepsAllBut m hs c) :
    (hs.filterMap id).length ≤ c.length + m * hs.count none := by
  induction h with
  | done => simp
  | keep x _ ih => simp [List.count_cons]; omega
  | error lost hl _ ih =>
    have h1 : (lost.map some).filterMap id = lost := by simp [List.filterMap_map]
    have h2 : (lost.map some).count none = 0 := by
      rw [List.count_eq_zero]; simp
    rw [List.filterMap_append, h1, List.length_append, List.count_append, h2, List.count_cons]
    simp only [List.filterMap_cons_none, id_eq, beq_self_eq_true, if_true]
    rw [Nat.zero_add, Nat.mul_add]
    omega

theorem readToEnd_happenings (ft : Bool) (es : List REvent) (limit : Nat) :
    ((readToEnd ft es limit).2.2 = true →
      happenings es = (readToEnd ft es limit).1.map some ++ happenings (readToEnd ft es limit).2.1) ∧
    (ft = false → (readToEnd ft es limit).2.2 = false →
      (readToEnd ft es limit).1.length + 1 ≤ limit ∧
      happenings es = (readToEnd ft es limit).1.map some ++ none :: happenings (readToEnd ft es limit).2.1) := by
  induction es generalizing limit with
  | nil => cases limit <;> cases ft <;> simp [readToEnd, happenings]
  | cons e es ih =>
    cases limit with
    | zero => simp [readToEnd]
    | succ l =>
      cases e with
      | intr => simpa [readToEnd, happenings] using ih (l + 1)
      | fail => simp [readToEnd, happenings]
      | data bs =>
        rw [readToEnd]
        split
        · rename_i hb; simp at hb; simp [happenings, hb]
        · split
          · obtain ⟨i1, i2⟩ := ih (l + 1 - bs.length)
            refine ⟨fun h => ?_, fun h0 h => ?_⟩
            · simp only [happenings]; rw [i1 h]; simp
            · obtain ⟨j1, j2⟩ := i2 h0 h
              refine ⟨by simp only [List.length_append]; omega, ?_⟩
              simp only [happenings]; rw [j2]; simp
          · refine ⟨fun _ => ?_, fun _ h => by simp at h⟩
            simp only [happenings]
            rw [← List.append_assoc, ← List.map_append, List.take_append_drop]

theorem fillLoop_loss (fuel : Nat) (s : FillState) (h : FillInv s) (s' : FillState) (fin : Bool)
    (hr : fillLoop false fuel s = Res.ok (s', fin)) :
    ∃ pre c, s'.buf = s.buf ++ c ∧ happenings s.events = pre ++ happenings s'.events ∧
      KeepsAllBut 719999 pre c := by
  induction fuel generalizing s with
  | zero => simp [fillLoop] at hr
  | succ fuel ih =>
    rw [fillLoop] at hr
    split at hr
    · rename_i hlt
      have hR : s.rleData.length ≤ 899998 := by
        rw [h.data]
        rw [h.total, rleLimit] at hlt
        by_cases hb : s.buf = []
        · rw [hb]; simp [rle]
        · have := rle_data_lt s.buf hb
          omega
      have : subU rleLimit s.rleData.length = Res.ok (900000 - s.rleData.length) := by
        unfold subU rleLimit; rw [if_pos (by omega)]
      rw [this, Res.ok_bind] at hr
      have hsz := readToEnd_size false s.events ((900000 - s.rleData.length) * 4 / 5)
      obtain ⟨hp1, hp2⟩ := readToEnd_happenings false s.events ((900000 - s.rleData.length) * 4 / 5)
      dsimp only at hr
      rcases hrd : readToEnd false s.events ((900000 - s.rleData.length) * 4 / 5) with ⟨bs, es, ok⟩
      rw [hrd] at hsz hr hp1 hp2
      simp only at hp1 hp2
      cases ok with
      | false =>
        simp only [Res.pure_eq, Res.ok.injEq, Prod.mk.injEq] at hr
        obtain ⟨rfl, rfl⟩ := hr
        obtain ⟨j1, j2⟩ := hp2 trivial rfl
        refine ⟨bs.map some ++ [none], [], by simp, by rw [j2]; simp, ?_⟩
        exact KeepsAllBut.error bs (by omega) KeepsAllBut.done
      | true =>
        dsimp only at hr
        split at hr
        · rename_i hb
          have hbs : bs = [] := by simpa using hb
          subst hbs
          simp only [Res.pure_eq, Res.ok.injEq, Prod.mk.injEq] at hr
          obtain ⟨rfl, rfl⟩ := hr
          exact ⟨[], [], by simp, by simpa using hp1 rfl, KeepsAllBut.done⟩
        · have happ := rle_append s.buf bs
          rw [← h.count, ← h.last, ← h.data] at happ
          obtain ⟨pre, c, c1, c2, c3⟩ := ih _ ⟨by simp only [happ], by simp only [happ], by simp only [happ],
            by simp only [← total_eq, happ, List.length_append],
            size_bound _ _ (by rw [← h.data]; omega) (by rw [← h.data]; exact hsz.2)⟩ hr
          dsimp only at c1 c2
          refine ⟨bs.map some ++ pre, bs ++ c, by rw [c1]; simp, by rw [hp1 rfl, c2]; simp,
            (KeepsAllBut.all _ bs).append c3⟩
    · simp only [Res.ok.injEq, Prod.mk.injEq] at hr
      obtain ⟨rfl, rfl⟩ := hr
      exact ⟨[], [], by simp, by simp, KeepsAllBut.done⟩

theorem nextBlock_loss (es : List REvent) (w : Option Work) (es' : List REvent) (fin : Bool)
    (hr : nextBlock false es = Res.ok (w, es', fin)) :
    ∃ pre c, w = (if c = [] then none else some (workOf c)) ∧
      happenings es = pre ++ happenings es' ∧ KeepsAllBut 719999 pre c := by
  have hinv : FillInv ⟨[], [], 0, 0, none, es⟩ :=
    ⟨rfl, rfl, rfl, by simp [rle1Encode, runs], by simp [rle1Encode, runs]⟩
  obtain ⟨s, f, h1, h2⟩ := fillLoop_total false (eventsSize es + 2) ⟨[], [], 0, 0, none, es⟩ hinv
    (by dsimp only; omega)
  obtain ⟨pre, c, c1, c2, c3⟩ := fillLoop_loss _ _ hinv _ _ h1
  simp only [List.nil_append] at c1
  rw [nextBlock, h1, Res.ok_bind] at hr
  dsimp only at hr c2
  split at hr
  · rename_i hb
    simp only [Res.pure_eq, Res.ok.injEq, Prod.mk.injEq] at hr
    obtain ⟨rfl, rfl, rfl⟩ := hr
    have : c = [] := by rw [← c1]; simpa using hb
    exact ⟨pre, c, by simp [this], c2, c3⟩
  · rename_i hb
    simp only [Res.pure_eq, Res.ok.injEq, Prod.mk.injEq] at hr
    obtain ⟨rfl, rfl, rfl⟩ := hr
    have hne : c ≠ [] := by intro h; rw [c1, h] at hb; simp at hb
    refine ⟨pre, c, ?_, c2, c3⟩
    rw [if_neg hne]
    have := rle_eq s.buf
    rw [← h2.data, ← h2.count, ← h2.last] at this
    rw [this, c1]; rfl

theorem sendLoop_loss (k : Nat) (es : List REvent) (fin : Bool) (ws : List Work)
    (es' : List REvent) (fin' : Bool) (hr : sendLoop false k es fin = Res.ok (ws, es', fin')) :
    ∃ pre, ∃ bs : List (List UInt8), ws = bs.map workOf ∧ (∀ b ∈ bs, b ≠ []) ∧
      happenings es = pre ++ happenings es' ∧ KeepsAllBut 719999 pre bs.flatten := by
  induction k generalizing es fin ws with
  | zero =>
    simp only [sendLoop, Res.ok.injEq, Prod.mk.injEq] at hr
    obtain ⟨rfl, rfl, rfl⟩ := hr
    exact ⟨[], [], rfl, by simp, by simp, KeepsAllBut.done⟩
  | succ k ih =>
    rw [sendLoop] at hr
    rcases hn : nextBlock false es with ⟨w, es1, f⟩ | _ | _ | _ <;>
      simp only [hn, Res.ok_bind, Res.err_bind, Res.panic_bind, Res.div_bind, reduceCtorEq] at hr
    obtain ⟨pre, c, c1, c2, c3⟩ := nextBlock_loss es w es1 f hn
    by_cases hc : c = []
    · subst hc
      simp only [if_true] at c1
      subst c1
      simp only [Res.pure_eq, Res.ok.injEq, Prod.mk.injEq] at hr
      obtain ⟨rfl, rfl, rfl⟩ := hr
      exact ⟨pre, [], rfl, by simp, c2, c3⟩
    · rw [if_neg hc] at c1
      subst c1
      dsimp only at hr
      rcases hs : sendLoop false k es1 (fin || f) with ⟨ws2, es2, f2⟩ | _ | _ | _ <;>
        simp only [hs, Res.ok_bind, Res.err_bind, Res.panic_bind, Res.div_bind, reduceCtorEq] at hr
      simp only [Res.pure_eq, Res.ok.injEq, Prod.mk.injEq] at hr
      obtain ⟨rfl, rfl, rfl⟩ := hr
      obtain ⟨pre', bs, b1, b2, b3, b4⟩ := ih _ _ _ hs
      refine ⟨pre ++ pre', c :: bs, by simp [b1], ?_, by rw [c2, b3]; simp, ?_⟩
      · intro x hx
        rcases List.mem_cons.1 hx with rfl | hx
        · exact hc
        · exact b2 x hx
      · simp only [List.flatten_cons]
        exact c3.append b4

theorem sendLoop_sticky_end (k : Nat) (es : List REvent) (hn : NoEof es) (ws : List Work) (es' : List REvent)
    (fin : Bool) (hr : sendLoop false k es false = Res.ok (ws, es', fin)) : fin = true → es' = [] := by
  induction k generalizing es ws es' fin with
  | zero =>
    simp only [sendLoop, Res.ok.injEq, Prod.mk.injEq] at hr
    obtain ⟨rfl, rfl, rfl⟩ := hr
    simp
  | succ k ih =>
    rw [sendLoop] at hr
    obtain ⟨⟨w, es1, f⟩, h1, h2⟩ := bind_eq_ok hr
    obtain ⟨s1, s2⟩ := nextBlock_sticky es hn w es1 f h1
    dsimp only at h2
    cases w with
    | none =>
      simp only [Res.pure_eq, Res.ok.injEq, Prod.mk.injEq, Bool.false_or] at h2
      obtain ⟨rfl, rfl, rfl⟩ := h2
      exact s2
    | some work =>
      obtain ⟨⟨ws', es2, f2⟩, i1, i2⟩ := bind_eq_ok h2
      simp only [Res.pure_eq, Res.ok.injEq, Prod.mk.injEq] at i2
      obtain ⟨rfl, rfl, rfl⟩ := i2
      cases f with
      | true =>
        have he := s2 rfl
        subst he
        rw [Bool.false_or, sendLoop_end] at i1
        simp only [Res.ok.injEq, Prod.mk.injEq] at i1
        obtain ⟨rfl, rfl, rfl⟩ := i1
        simp
      | false => exact ih es1 s1 _ _ _ i1

/-- `N` says that the reader reports end of file only when it has nothing left; it is used up then. -/
theorem mainLoop_loss (gen : Work → Res (List Bit)) (t fuel : Nat) (es : List REvent)
    (bw bw' : BitWriter) (crc crc' : BitVec 32) (fin : Bool) (N : Prop) (hN : N → NoEof es)
    (hfin : fin = true → N → es = [])
    (h : mainLoop gen false t fuel es fin bw crc = (bw', Res.ok crc')) :
    ∃ pre rest, ∃ bs : List (List UInt8), flushLoop gen (bs.map workOf) bw crc = (bw', Res.ok crc') ∧
      (∀ b ∈ bs, b ≠ []) ∧ happenings es = pre ++ rest ∧ KeepsAllBut 719999 pre bs.flatten ∧
      (N → rest = []) := by
  induction fuel generalizing es fin bw crc with
  | zero => simp [mainLoop] at h
  | succ fuel ih =>
    rw [mainLoop] at h
    split at h
    · rename_i hf
      exact ⟨[], happenings es, [], h, by simp, by simp, KeepsAllBut.done,
        fun hn => by rw [hfin hf hn]; rfl⟩
    · rename_i hf
      have hf0 : fin = false := by simpa using hf
      subst hf0
      obtain ⟨_, es', fin', h1, -⟩ := sendLoop_total false t es false
      obtain ⟨pre, bs, b1, b2, b3, b4⟩ := sendLoop_loss _ _ _ _ _ _ h1
      rw [h1] at h
      rw [b1] at h
      dsimp only at h
      rcases hfl : flushLoop gen (bs.map workOf) bw crc with ⟨bw1, r⟩
      rw [hfl] at h
      cases r with
      | ok c =>
        obtain ⟨pre', rest, bs', i1, i2, i3, i4, i5⟩ := ih es' bw1 c fin'
          (fun hn => (sendLoop_sticky t es (hN hn) _ _ _ h1).1)
          (fun h0 hn => sendLoop_sticky_end t es (hN hn) _ _ _ h1 h0) h
        refine ⟨pre ++ pre', rest, bs ++ bs', ?_, ?_, by rw [b3, i3]; simp, ?_, i5⟩
        · rw [List.map_append, flushLoop_append, hfl]; exact i1
        · intro b hb
          rcases List.mem_append.1 hb with hb | hb
          · exact b2 b hb
          · exact i2 b hb
        · rw [List.flatten_append]; exact b4.append i4
      | err => simp at h
      | panic => simp at h
      | div => simp at h

theorem encodeStreamFuel_loss (fuel : Nat) (dist : Distance) (es : List REvent) (w w' : Writer) (t : Nat)
    (strategy : Strategy) (h : encodeStreamFuel fuel dist ⟨es, false⟩ w t strategy = (w', Res.ok ())) :
    ∃ pre rest, ∃ bs : List (List UInt8), encodeBlocks dist strategy bs w = (w', Res.ok ()) ∧
      (∀ b ∈ bs, b ≠ []) ∧ happenings es = pre ++ rest ∧ KeepsAllBut 719999 pre bs.flatten ∧
      (NoEof es → rest = []) := by
  unfold encodeStreamFuel at h
  unfold encodeBlocks
  rcases h1 : (BitWriter.fromWriter w).writeBits fileHeader with ⟨bw, rr⟩
  rw [h1] at h
  simp only [andThen_eq] at h ⊢
  cases rr with
  | ok a =>
    simp only [Res.unwrap_ok] at h ⊢
    rcases h2 : mainLoop (fun work => generateBlockData dist strategy work.crc work.rleTotal)
      false t fuel es false bw 0 with ⟨bw1, r1⟩
    rw [h2] at h
    cases r1 with
    | ok crc =>
      obtain ⟨pre, rest, bs, i1, i2⟩ := mainLoop_loss _ _ _ _ _ _ _ _ _ (NoEof es) id (by simp) h2
      refine ⟨pre, rest, bs, ?_, i2⟩
      rw [i1]
      exact h
    | err => simp at h
    | panic => simp at h
    | div => simp at h
  | err => simp at h
  | panic => simp at h
  | div => simp at h

/-! ### an error in the first refill loses everything -/

theorem readToEnd_steady_fail (es rest : List REvent) (limit : Nat) (hes : Steady es)
    (hl : (scriptBytes es).length + 1 ≤ limit) :
    readToEnd false (es ++ REvent.fail :: rest) limit = (scriptBytes es, rest, false) := by
  induction es generalizing limit with
  | nil =>
    obtain ⟨l, rfl⟩ : ∃ l, limit = l + 1 := ⟨limit - 1, by omega⟩
    simp [readToEnd, scriptBytes]
  | cons e es ih =>
    have hes' : Steady es := fun x hx => hes x (by simp [hx])
    obtain ⟨l, rfl⟩ : ∃ l, limit = l + 1 := ⟨limit - 1, by omega⟩
    rcases hes e (by simp) with rfl | ⟨bs, hne, rfl⟩
    · simpa [readToEnd, scriptBytes] using ih (l + 1) hes' (by simpa [scriptBytes] using hl)
    · have hb : bs.isEmpty = false := by simp [hne]
      simp only [scriptBytes, List.length_append] at hl
      rw [List.cons_append, readToEnd, hb]
      simp only [Bool.false_eq_true, if_false]
      rw [if_pos (by omega), ih (l + 1 - bs.length) hes' (by omega)]
      simp [scriptBytes]

theorem nextBlock_steady_fail (es rest : List REvent) (hes : Steady es)
    (hl : (scriptBytes es).length ≤ 719999) :
    nextBlock false (es ++ REvent.fail :: rest) = Res.ok (none, rest, false) := by
  have h1 := readToEnd_steady_fail es rest 720000 hes (by omega)
  have h2 : fillLoop false (eventsSize (es ++ REvent.fail :: rest) + 2)
      ⟨[], [], 0, 0, none, es ++ REvent.fail :: rest⟩ = Res.ok (⟨[], [], 0, 0, none, rest⟩, false) := by
    rw [fillLoop]
    have h3 : subU rleLimit 0 = Res.ok 900000 := rfl
    simp only [List.length_nil, h3, Res.ok_bind, Nat.reduceMul, Nat.reduceDiv, h1]
    rfl
  rw [nextBlock, h2]
  rfl

/-- The first refill fails and everything it delivered is gone: the call does what it does on the rest of
the reader. -/
theorem encodeStream_steady_fail (dist : Distance) (es : List REvent) (w : Writer) (t : Nat) (ht : 1 ≤ t)
    (strategy : Strategy) (hes : Steady es) (hl : (scriptBytes es).length ≤ 719999) (rest : List REvent)
    (hrest : NoEof rest) :
    encodeStream dist ⟨es ++ REvent.fail :: rest, false⟩ w t strategy
      = encodeStream dist ⟨rest, false⟩ w t strategy := by
  have hn : NoEof (es ++ REvent.fail :: rest) := by
    intro e he
    rcases List.mem_append.1 he with he | he
    · rcases hes e he with rfl | ⟨bs, hne, rfl⟩
      · simp
      · simpa using hne
    · rcases List.mem_cons.1 he with rfl | he
      · simp
      · exact hrest e he
  have hw : allWorks (es ++ REvent.fail :: rest) = allWorks rest := by
    simpa using allWorks_step _ _ _ _ (nextBlock_steady_fail es rest hes hl)
  have key : ∀ es', NoEof es' → ∀ bw crc,
      mainLoop (fun work => generateBlockData dist strategy work.crc work.rleTotal) false t
        (eventsSize es' + es'.length + 2) es' false bw crc
      = flushLoop (fun work => generateBlockData dist strategy work.crc work.rleTotal) (allWorks es') bw crc :=
    fun es' hn' bw crc => mainLoop_sticky _ t ht _ es' hn' bw crc (by unfold measureOf; omega)
  unfold encodeStream encodeStreamFuel
  simp only [key _ hn, key _ hrest, hw]

end Ribzip2
