import Verif.Model.Stream
import Verif.Spec.Reader
import Verif.Proofs.Rle
import Verif.Proofs.Bits
/- The block loop of `encode_stream` on a steady reader. -/
namespace Ribzip2
open Spec

theorem steady_tail {e : REvent} {es : List REvent} (h : Steady (e :: es)) : Steady es :=
  fun x hx => h x (by simp [hx])

theorem eventsSize_eq (es : List REvent) : eventsSize es = (scriptBytes es).length := by
  induction es with
  | nil => rfl
  | cons e es ih => cases e <;> simp [eventsSize, scriptBytes, ih]

theorem readToEnd_steady (ft : Bool) (es : List REvent) (limit : Nat) (h : Steady es)
    (hf : ft = false ∨ limit ≤ (scriptBytes es).length) :
    ∃ es', readToEnd ft es limit = ((scriptBytes es).take limit, es', true) ∧ Steady es' ∧
      scriptBytes es' = (scriptBytes es).drop limit := by
  induction es generalizing limit with
  | nil =>
    cases limit with
    | zero => exact ⟨[], by simp [readToEnd, scriptBytes], h, by simp [scriptBytes]⟩
    | succ l =>
      have : ft = false := by
        rcases hf with hf | hf
        · exact hf
        · simp [scriptBytes] at hf
      exact ⟨[], by simp [readToEnd, scriptBytes, this], h, by simp [scriptBytes]⟩
  | cons e es ih =>
    cases limit with
    | zero => exact ⟨e :: es, by simp [readToEnd], h, by simp⟩
    | succ l =>
      rcases h e (by simp) with rfl | ⟨bs, hbs, rfl⟩
      · obtain ⟨es', h1, h2, h3⟩ := ih (l + 1) (steady_tail h) (by simpa [scriptBytes] using hf)
        exact ⟨es', by simpa [readToEnd, scriptBytes] using h1, h2, by simpa [scriptBytes] using h3⟩
      · have hb : bs.isEmpty = false := by simp [hbs]
        rw [readToEnd, hb]
        by_cases hl : bs.length ≤ l + 1
        · obtain ⟨es', h1, h2, h3⟩ := ih (l + 1 - bs.length) (steady_tail h) (by
            rcases hf with hf | hf
            · exact Or.inl hf
            · right; simp [scriptBytes] at hf; omega)
          refine ⟨es', ?_, h2, ?_⟩
          · simp only [Bool.false_eq_true, if_false, hl, if_true, h1]
            simp only [scriptBytes, List.take_append, List.take_of_length_le hl]
          · rw [h3]; simp only [scriptBytes, List.drop_append, List.drop_of_length_le hl]; simp
        · refine ⟨REvent.data (bs.drop (l + 1)) :: es, ?_, ?_, ?_⟩
          · simp only [Bool.false_eq_true, if_false, hl]
            simp only [scriptBytes, List.take_append, show l + 1 - bs.length = 0 by omega,
              List.take_zero, List.append_nil]
          · intro x hx
            rcases List.mem_cons.1 hx with rfl | hx
            · exact Or.inr ⟨_, by simp; omega, rfl⟩
            · exact steady_tail h x hx
          · simp only [scriptBytes, List.drop_append, show l + 1 - bs.length = 0 by omega,
              List.drop_zero]

/-! ### where a block ends -/

/-- The run-length encoder after the first `n` bytes. -/
def rleAt (d : List UInt8) (n : Nat) : RleResult := rle (d.take n) 0 none

/-- The loop deciding where the block at the start of `d` ends, in terms of the bytes only: number of
bytes and whether the end of the data was noticed. -/
def cutLoop (d : List UInt8) : Nat → Nat → Nat × Bool
  | 0, n => (n, false)
  | fuel + 1, n =>
    if (rle1Encode (d.take n)).length < 900000 then
      if d.length ≤ n then (n, true)
      else cutLoop d fuel (n + min ((900000 - (rleAt d n).data.length) * 4 / 5) (d.length - n))
    else (n, false)

theorem rleAt_step (d : List UInt8) (n t : Nat) :
    rleAt d (n + t) = ⟨(rleAt d n).data ++ (rle ((d.drop n).take t) (rleAt d n).counter (rleAt d n).lastByte).data,
      (rle ((d.drop n).take t) (rleAt d n).counter (rleAt d n).lastByte).counter,
      (rle ((d.drop n).take t) (rleAt d n).counter (rleAt d n).lastByte).lastByte⟩ := by
  rw [rleAt, rle, List.take_add, List.foldl_append]
  refine Eq.trans (foldl_rleStep_data _ (rleAt d n).data (rleAt d n).counter (rleAt d n).lastByte) rfl

theorem total_at (d : List UInt8) (n : Nat) :
    rleTotalSize (rleAt d n).data.length (rleAt d n).counter (rleAt d n).lastByte
      = (rle1Encode (d.take n)).length := by
  rw [rleTotalSize_eq, rleAt, rle_eq]

theorem data_lt_total (d : List UInt8) (n : Nat) (h : d.take n ≠ []) :
    (rleAt d n).data.length < (rle1Encode (d.take n)).length := by
  rw [← total_at]
  obtain ⟨h1, h2, h3⟩ := rle_counter (d.take n) h
  obtain ⟨b, hb⟩ := Option.isSome_iff_exists.1 h3
  have hc : 1 ≤ (rleAt d n).counter := h1
  have hl : (rleAt d n).lastByte = some b := hb
  rw [hl, rleTotalSize]
  split <;> omega

/-- As long as a block is not full, at least one byte is asked for. -/
theorem toTake_pos (d : List UInt8) (n : Nat) (h : (rle1Encode (d.take n)).length < 900000) :
    (rleAt d n).data.length ≤ 900000 ∧ 1 ≤ (900000 - (rleAt d n).data.length) * 4 / 5 := by
  by_cases hd : d.take n = []
  · rw [rleAt, hd]; simp [rle]
  · have := data_lt_total d n hd
    omega

/-- The variables of the loop after `n` bytes of `d`. -/
def stateAt (d : List UInt8) (n : Nat) (es : List REvent) : FillState :=
  ⟨d.take n, (rleAt d n).data, (rle1Encode (d.take n)).length, (rleAt d n).counter,
    (rleAt d n).lastByte, es⟩

theorem take_add_min (d : List UInt8) (n t : Nat) : d.take (n + min t (d.length - n)) = d.take (n + t) := by
  rw [List.take_eq_take_iff]
  omega

theorem fillLoop_steady (d : List UInt8) (fuel n : Nat) (es : List REvent) (hes : Steady es)
    (hb : scriptBytes es = d.drop n) (hn : n ≤ d.length) (hfuel : d.length - n < fuel) :
    ∃ es', fillLoop false fuel (stateAt d n es)
        = Res.ok (stateAt d (cutLoop d fuel n).1 es', (cutLoop d fuel n).2) ∧ Steady es' ∧
      scriptBytes es' = d.drop (cutLoop d fuel n).1 ∧ n ≤ (cutLoop d fuel n).1 ∧
      (cutLoop d fuel n).1 ≤ d.length ∧ ((cutLoop d fuel n).2 = true → (cutLoop d fuel n).1 = d.length) := by
  induction fuel generalizing n es with
  | zero => omega
  | succ fuel ih =>
    rw [fillLoop, cutLoop]
    by_cases htot : (rle1Encode (d.take n)).length < 900000
    · obtain ⟨h1, h2⟩ := toTake_pos d n htot
      have e1 : (stateAt d n es).total < rleLimit := htot
      have e2 : subU rleLimit (stateAt d n es).rleData.length
          = Res.ok (900000 - (rleAt d n).data.length) := by
        unfold subU rleLimit stateAt; rw [if_pos h1]
      rw [if_pos e1, if_pos htot, e2, Res.ok_bind]
      obtain ⟨es', r1, r2, r3⟩ := readToEnd_steady false es
        ((900000 - (rleAt d n).data.length) * 4 / 5) hes (Or.inl rfl)
      generalize ht : (900000 - (rleAt d n).data.length) * 4 / 5 = t at *
      have e3 : (stateAt d n es).events = es := rfl
      simp only [e3]
      rw [r1, hb]
      simp only
      by_cases hend : d.length ≤ n
      · have hdn : n = d.length := by omega
        have : d.drop n = [] := by rw [List.drop_eq_nil_iff]; omega
        rw [if_pos (by rw [this]; simp), if_pos hend]
        refine ⟨es', rfl, r2, ?_, Nat.le_refl _, hn, fun _ => hdn⟩
        rw [r3, hb, this]; simp
      · have hlen : ((d.drop n).take t).length = min t (d.length - n) := by
          rw [List.length_take, List.length_drop]
        rw [if_neg (by rw [hlen]; omega), if_neg hend]
        have hstep := rleAt_step d n t
        obtain ⟨es'', i1, i2, i3, i4, i5, i6⟩ := ih (n + min t (d.length - n)) es' r2
          (by rw [r3, hb, List.drop_drop]
              by_cases hle : t ≤ d.length - n
              · rw [Nat.min_eq_left hle]
              · rw [Nat.min_eq_right (by omega), List.drop_of_length_le (by omega),
                  List.drop_of_length_le (by omega)])
          (by omega) (by omega)
        refine ⟨es'', ?_, i2, i3, by omega, i5, i6⟩
        rw [← i1]
        congr 1
        have hta := take_add_min d n t
        have hat : rleAt d (n + min t (d.length - n)) = rleAt d (n + t) := by
          rw [rleAt, rleAt, hta]
        unfold stateAt
        rw [hat, hta]
        simp only [FillState.mk.injEq, and_true]
        refine ⟨?_, ?_, ?_, ?_, ?_⟩
        · rw [List.take_add]
        · rw [hstep]
        · rw [← total_at, hstep, List.length_append]
        · rw [hstep]
        · rw [hstep]
    · have e1 : ¬ (stateAt d n es).total < rleLimit := htot
      rw [if_neg e1, if_neg htot]
      exact ⟨es, rfl, hes, hb, Nat.le_refl _, hn, by simp⟩

/-- Number of bytes in the first block of `d`, and whether reading it noticed the end of the data. -/
def cut (d : List UInt8) : Nat × Bool := cutLoop d (d.length + 2) 0

theorem cutLoop_ge (d : List UInt8) (fuel n : Nat) : n ≤ (cutLoop d fuel n).1 := by
  induction fuel generalizing n with
  | zero => exact Nat.le_refl _
  | succ fuel ih =>
    rw [cutLoop]
    split
    · split
      · exact Nat.le_refl _
      · exact Nat.le_trans (Nat.le_add_right _ _) (ih _)
    · exact Nat.le_refl _

/-- A steady script delivering `d`. -/
def bytesScript (d : List UInt8) : List REvent := if d = [] then [] else [REvent.data d]

theorem bytesScript_steady (d : List UInt8) : Steady (bytesScript d) := by
  unfold bytesScript
  split
  · intro e he; simp at he
  · rename_i h
    intro e he
    simp at he
    exact Or.inr ⟨d, h, he⟩

theorem scriptBytes_bytesScript (d : List UInt8) : scriptBytes (bytesScript d) = d := by
  unfold bytesScript
  split
  · rename_i h; simp [h, scriptBytes]
  · simp [scriptBytes]

theorem cut_le (d : List UInt8) : (cut d).1 ≤ d.length ∧ ((cut d).2 = true → (cut d).1 = d.length) := by
  obtain ⟨_, _, _, _, _, h, h'⟩ := fillLoop_steady d (d.length + 2) 0 (bytesScript d)
    (bytesScript_steady d) (by simp [scriptBytes_bytesScript]) (Nat.zero_le _) (by omega)
  exact ⟨h, h'⟩

theorem cut_nil : cut [] = (0, true) := by
  rw [cut, cutLoop]; simp [rle1Encode, runs]

theorem cut_pos (d : List UInt8) (h : d ≠ []) : 1 ≤ (cut d).1 := by
  have hl := List.length_pos_iff.2 h
  rw [cut, cutLoop]
  have : (rle1Encode (d.take 0)).length < 900000 := by simp [rle1Encode, runs]
  rw [if_pos this, if_neg (by omega)]
  have h2 := (toTake_pos d 0 this).2
  exact Nat.le_trans (by omega) (cutLoop_ge _ _ _)

theorem nextBlock_steady (es : List REvent) (h : Steady es) :
    ∃ es', nextBlock false es = Res.ok
        (if scriptBytes es = [] then none else
          some ⟨crc32 ((scriptBytes es).take (cut (scriptBytes es)).1),
            rle1Encode ((scriptBytes es).take (cut (scriptBytes es)).1)⟩,
          es', (cut (scriptBytes es)).2) ∧ Steady es' ∧
      scriptBytes es' = (scriptBytes es).drop (cut (scriptBytes es)).1 := by
  generalize hd : scriptBytes es = d
  obtain ⟨es', h1, h2, h3, -, h5, -⟩ := fillLoop_steady d (d.length + 2) 0 es h (by simp [hd])
    (Nat.zero_le _) (by omega)
  rw [show cutLoop d (d.length + 2) 0 = cut d from rfl] at h1 h3 h5
  refine ⟨es', ?_, h2, h3⟩
  rw [nextBlock, eventsSize_eq, hd]
  rw [show (⟨[], [], 0, 0, none, es⟩ : FillState) = stateAt d 0 es by
    simp [stateAt, rleAt, rle, rle1Encode, runs], h1]
  simp only [Res.ok_bind]
  have e1 : (stateAt d (cut d).1 es').buf = d.take (cut d).1 := rfl
  have e2 : (stateAt d (cut d).1 es').events = es' := rfl
  by_cases hd0 : d = []
  · rw [if_pos (by rw [e1, hd0]; simp), if_pos hd0, e2]; rfl
  · have := cut_pos d hd0
    rw [if_neg (by rw [e1, List.length_take]; omega), if_neg hd0, e1, e2]
    have : rleAugment (stateAt d (cut d).1 es').rleData (stateAt d (cut d).1 es').count
        (stateAt d (cut d).1 es').last = rle1Encode (d.take (cut d).1) := rle_eq _
    rw [this]; rfl

/-! ### all blocks -/

/-- The blocks `d` is cut into. -/
def splitFuel : Nat → List UInt8 → List (List UInt8)
  | 0, _ => []
  | fuel + 1, d => if d = [] then [] else d.take (cut d).1 :: splitFuel fuel (d.drop (cut d).1)

def blocksOf (d : List UInt8) : List (List UInt8) := splitFuel d.length d

theorem splitFuel_eq (f₁ f₂ : Nat) (d : List UInt8) (h1 : d.length ≤ f₁) (h2 : d.length ≤ f₂) :
    splitFuel f₁ d = splitFuel f₂ d := by
  induction f₁ generalizing f₂ d with
  | zero =>
    have : d = [] := List.length_eq_zero_iff.1 (by omega)
    subst this
    cases f₂ <;> simp [splitFuel]
  | succ f₁ ih =>
    by_cases hd : d = []
    · subst hd; cases f₂ <;> simp [splitFuel]
    · have hl := List.length_pos_iff.2 hd
      have := cut_pos d hd
      obtain ⟨f₂, rfl⟩ : ∃ f, f₂ = f + 1 := ⟨f₂ - 1, by omega⟩
      rw [splitFuel, splitFuel, if_neg hd, if_neg hd, ih f₂ _ (by simp; omega) (by simp; omega)]

theorem blocksOf_nil : blocksOf [] = [] := rfl

theorem blocksOf_cons (d : List UInt8) (h : d ≠ []) :
    blocksOf d = d.take (cut d).1 :: blocksOf (d.drop (cut d).1) := by
  have hl := List.length_pos_iff.2 h
  have := cut_pos d h
  rw [blocksOf, show d.length = (d.length - 1) + 1 by omega, splitFuel, if_neg h]
  rw [splitFuel_eq (d.length - 1) _ _ (by simp; omega) (Nat.le_refl _)]
  rfl

/-- Induction along the blocks. -/
theorem blocks_induction {P : List UInt8 → Prop} (h0 : P [])
    (h1 : ∀ d, d ≠ [] → P (d.drop (cut d).1) → P d) (d : List UInt8) : P d := by
  induction h : d.length using Nat.strongRecOn generalizing d with
  | _ n ih =>
    by_cases hd : d = []
    · subst hd; exact h0
    · have hl := List.length_pos_iff.2 hd
      have := cut_pos d hd
      exact h1 d hd (ih _ (by rw [List.length_drop]; omega) _ rfl)

theorem blocksOf_flatten (d : List UInt8) : (blocksOf d).flatten = d := by
  induction d using blocks_induction with
  | h0 => rfl
  | h1 d hd ih => rw [blocksOf_cons d hd, List.flatten_cons, ih, List.take_append_drop]

theorem blocksOf_ne_nil (d : List UInt8) : ∀ b ∈ blocksOf d, b ≠ [] := by
  induction d using blocks_induction with
  | h0 => simp [blocksOf_nil]
  | h1 d hd ih =>
    rw [blocksOf_cons d hd]
    intro b hb
    rcases List.mem_cons.1 hb with rfl | hb
    · have := cut_pos d hd
      have := List.length_pos_iff.2 hd
      intro h
      have := congrArg List.length h
      rw [List.length_take, List.length_nil] at this
      omega
    · exact ih b hb

/-- The work for a block. -/
def workOf (b : List UInt8) : Work := ⟨crc32 b, rle1Encode b⟩

theorem sendLoop_steady (k : Nat) (es : List REvent) (h : Steady es) (fin : Bool)
    (hfin : fin = true → scriptBytes es = []) :
    ∃ es' fin' n, sendLoop false k es fin
        = Res.ok (((blocksOf (scriptBytes es)).take n).map workOf, es', fin') ∧ Steady es' ∧
      blocksOf (scriptBytes es') = (blocksOf (scriptBytes es)).drop n ∧
      (fin' = true → scriptBytes es' = []) ∧
      (1 ≤ k → scriptBytes es = [] → fin' = true) ∧
      (1 ≤ k → scriptBytes es ≠ [] → (scriptBytes es').length < (scriptBytes es).length) ∧
      (scriptBytes es').length ≤ (scriptBytes es).length := by
  induction k generalizing es fin with
  | zero => exact ⟨es, fin, 0, by simp [sendLoop], h, by simp, hfin, by simp, by simp, Nat.le_refl _⟩
  | succ k ih =>
    obtain ⟨es', h1, h2, h3⟩ := nextBlock_steady es h
    rw [sendLoop, h1]
    simp only [Res.ok_bind]
    generalize hd : scriptBytes es = d at *
    by_cases hd0 : d = []
    · rw [if_pos hd0]
      simp only [Res.pure_eq]
      subst hd0
      rw [cut_nil] at h3 ⊢
      exact ⟨es', true, 0, by simp, h2, by simp [h3], by simp [h3], by simp, by simp, by simp [h3]⟩
    · rw [if_neg hd0]
      simp only
      have hfin0 : fin = false := by
        cases fin with
        | false => rfl
        | true => exact absurd (hfin rfl) hd0
      subst hfin0
      have hlt : (scriptBytes es').length < d.length := by
        have := cut_pos d hd0
        have := List.length_pos_iff.2 hd0
        rw [h3, List.length_drop]; omega
      obtain ⟨es'', fin', n, i1, i2, i3, i4, i5, i6, i7⟩ := ih es' h2 (false || (cut d).2) (by
        intro hc
        rw [h3, (cut_le d).2 (by simpa using hc)]; simp)
      rw [i1]
      simp only [Res.ok_bind, Res.pure_eq]
      refine ⟨es'', fin', n + 1, ?_, i2, ?_, i4, fun _ h => absurd h hd0, fun _ _ => by omega, by omega⟩
      · rw [blocksOf_cons d hd0, h3]
        simp [workOf]
      · rw [i3, h3, blocksOf_cons d hd0]; simp

theorem flushLoop_append (gen : Work → Res (List Bit)) (a b : List Work) (bw : BitWriter) (crc : BitVec 32) :
    flushLoop gen (a ++ b) bw crc =
      andThen (flushLoop gen a bw crc) fun bw crc => flushLoop gen b bw crc := by
  induction a generalizing bw crc with
  | nil => rfl
  | cons w a ih =>
    rw [List.cons_append, flushLoop, flushLoop]
    rcases flushOne gen w bw crc with ⟨bw', r⟩
    cases r <;> simp only [andThen]
    exact ih _ _

theorem andThen_eq {α β : Type} (x : BitWriter × Res α) (f : BitWriter → α → BitWriter × Res β) :
    andThen x f = match x.2 with
      | Res.ok a => f x.1 a | Res.err => (x.1, Res.err) | Res.panic => (x.1, Res.panic)
      | Res.div => (x.1, Res.div) := by
  rcases x with ⟨bw, r⟩
  cases r <;> rfl

theorem mainLoop_steady (gen : Work → Res (List Bit)) (t : Nat) (ht : 1 ≤ t) (fuel : Nat)
    (es : List REvent) (h : Steady es) (fin : Bool) (hfin : fin = true → scriptBytes es = [])
    (bw : BitWriter) (crc : BitVec 32) (hfuel : (scriptBytes es).length + 2 ≤ fuel) :
    mainLoop gen false t fuel es fin bw crc = flushLoop gen ((blocksOf (scriptBytes es)).map workOf) bw crc := by
  induction fuel generalizing es fin bw crc with
  | zero => omega
  | succ fuel ih =>
    rw [mainLoop]
    cases fin with
    | true => simp [hfin rfl, blocksOf_nil, flushLoop]
    | false =>
      simp only [Bool.false_eq_true, if_false]
      obtain ⟨es', fin', n, h1, h2, h3, h4, h5, h6, h7⟩ := sendLoop_steady t es h false (by simp)
      rw [h1]
      simp only
      have hsplit : (blocksOf (scriptBytes es)).map workOf =
          ((blocksOf (scriptBytes es)).take n).map workOf ++ (blocksOf (scriptBytes es')).map workOf := by
        rw [h3, ← List.map_append, List.take_append_drop]
      rw [hsplit, flushLoop_append]
      rcases flushLoop gen (((blocksOf (scriptBytes es)).take n).map workOf) bw crc with ⟨bw', r⟩
      cases r with
      | ok c =>
        simp only [andThen]
        by_cases hd : scriptBytes es = []
        · have hf := h5 ht hd
          subst hf
          have he := h4 rfl
          obtain ⟨fuel, rfl⟩ : ∃ f, fuel = f + 1 := ⟨fuel - 1, by omega⟩
          simp [mainLoop, he, blocksOf_nil, flushLoop]
        · exact ih es' h2 fin' h4 bw' c (by have := h6 ht hd; omega)
      | err => rfl
      | panic => rfl
      | div => rfl

/-- What `encode_stream` writes for the blocks `bs`. -/
def encodeBlocks (dist : Distance) (strategy : Strategy) (bs : List (List UInt8)) (w : Writer) :
    Writer × Res Unit :=
  let gen := fun work : Work => generateBlockData dist strategy work.crc work.rleTotal
  let result :=
    andThen
      (match (BitWriter.fromWriter w).writeBits fileHeader with | (bw, r) => (bw, r.unwrap))
      fun bw _ =>
    andThen (flushLoop gen (bs.map workOf) bw 0) fun bw crc =>
    andThen (match bw.writeBits (streamFooter crc) with | (bw, r) => (bw, r.unwrap)) fun bw _ =>
    match bw.finalize with | (bw, r) => (bw, r.unwrap)
  (result.1.w, result.2)

theorem encodeStreamFuel_steady (fuel : Nat) (dist : Distance) (es : List REvent) (w : Writer) (t : Nat)
    (strategy : Strategy) (h : Steady es) (ht : 1 ≤ t) (hfuel : (scriptBytes es).length + 2 ≤ fuel) :
    encodeStreamFuel fuel dist ⟨es, false⟩ w t strategy
      = encodeBlocks dist strategy (blocksOf (scriptBytes es)) w := by
  unfold encodeStreamFuel encodeBlocks
  simp only [mainLoop_steady _ t ht fuel es h false (by simp) _ _ hfuel]

theorem encodeStream_steady (dist : Distance) (es : List REvent) (w : Writer) (t : Nat)
    (strategy : Strategy) (h : Steady es) (ht : 1 ≤ t) :
    encodeStream dist ⟨es, false⟩ w t strategy
      = encodeBlocks dist strategy (blocksOf (scriptBytes es)) w := by
  unfold encodeStream
  exact encodeStreamFuel_steady _ _ _ _ _ _ h ht (by rw [eventsSize_eq]; simp only; omega)

theorem nextBlock_ofNil : nextBlock false [REvent.data []] = Res.ok (none, [], true) := by
  rfl

theorem encodeStream_ofBytes (dist : Distance) (d : List UInt8) (w : Writer) (t : Nat)
    (strategy : Strategy) (ht : 1 ≤ t) :
    encodeStream dist (Reader.ofBytes d) w t strategy = encodeBlocks dist strategy (blocksOf d) w := by
  by_cases hd : d = []
  · subst hd
    obtain ⟨t, rfl⟩ : ∃ k, t = k + 1 := ⟨t - 1, by omega⟩
    unfold encodeStream encodeStreamFuel encodeBlocks
    have : ∀ gen bw, mainLoop gen (Reader.ofBytes []).failTail (t + 1)
        (eventsSize (Reader.ofBytes []).events + (Reader.ofBytes []).events.length + 2)
        (Reader.ofBytes []).events false bw 0 = (bw, Res.ok 0) := by
      intro gen bw
      have : eventsSize (Reader.ofBytes []).events + (Reader.ofBytes []).events.length + 2 = 1 + 1 + 1 := rfl
      rw [this, mainLoop]
      simp only [Bool.false_eq_true, if_false]
      rw [show (Reader.ofBytes []).failTail = false from rfl,
        show (Reader.ofBytes []).events = [REvent.data []] from rfl, sendLoop, nextBlock_ofNil]
      simp [flushLoop, mainLoop]
    simp only [this, blocksOf_nil, List.map_nil, flushLoop]
  · have := encodeStream_steady dist [REvent.data d] w t strategy
      (by intro e he; simp at he; exact Or.inr ⟨d, hd, he⟩) ht
    simpa [scriptBytes, Reader.ofBytes] using this

end Ribzip2
