import Verif.Proofs.Stream
/- The block loop of `encode_stream` on arbitrary readers: no panic, sizes, checksums. -/
namespace Ribzip2
open Spec

theorem readToEnd_size (ft : Bool) (es : List REvent) (limit : Nat) :
    (readToEnd ft es limit).1.length + eventsSize (readToEnd ft es limit).2.1 ≤ eventsSize es ∧
      (readToEnd ft es limit).1.length ≤ limit := by
  induction es generalizing limit with
  | nil => cases limit <;> simp [readToEnd]
  | cons e es ih =>
    cases limit with
    | zero => simp [readToEnd]
    | succ l =>
      cases e with
      | intr => simpa [readToEnd, eventsSize] using ih (l + 1)
      | fail => simp [readToEnd, eventsSize]
      | data bs =>
        rw [readToEnd]
        split
        · simp [eventsSize]
        · split
          · have := ih (l + 1 - bs.length)
            rcases hr : readToEnd ft es (l + 1 - bs.length) with ⟨a, b, c⟩
            rw [hr] at this
            simp only [eventsSize, List.length_append] at this ⊢
            omega
          · simp only [eventsSize, List.length_take, List.length_drop]
            omega

/-! ### growth of the run-length encoding -/

/-- Four times the size the run-length encoder has committed to, counting the pending run with five
quarters per byte, at most five. -/
def potential (s : RleResult) : Nat := 4 * s.data.length + 5 * min s.counter 4

theorem potential_step (s : RleResult) (b : UInt8) (h : s.lastByte = none → s.counter = 0) :
    potential (rleStep s b) ≤ potential s + 5 := by
  obtain ⟨data, c, l⟩ := s
  unfold rleStep potential
  cases l with
  | none => have : c = 0 := h rfl; subst this; simp
  | some x =>
    dsimp only
    split
    · split
      · simp; omega
      · simp; omega
    · simp; omega

theorem potential_fold (d : List UInt8) (s : RleResult) (h : s.lastByte = none → s.counter = 0) :
    potential (d.foldl rleStep s) ≤ potential s + 5 * d.length := by
  induction d generalizing s with
  | nil => simp
  | cons b d ih =>
    have h1 := potential_step s b h
    have h2 := ih (rleStep s b) (by
      unfold rleStep
      cases s.lastByte with
      | none => simp
      | some x => dsimp only; split <;> try split
                  all_goals simp)
    rw [List.foldl_cons, List.length_cons]
    omega

theorem total_le_potential (s : RleResult) : 4 * rleTotalSize s.data.length s.counter s.lastByte ≤ potential s := by
  unfold rleTotalSize potential
  split
  · split <;> omega
  · omega

theorem rle_none (d : List UInt8) (h : (rle d 0 none).lastByte = none) : (rle d 0 none).counter = 0 := by
  by_cases hd : d = []
  · subst hd; rfl
  · have := (rle_counter d hd).2.2
    rw [h] at this; simp at this

theorem rle_append (x y : List UInt8) :
    rle (x ++ y) 0 none = ⟨(rle x 0 none).data ++ (rle y (rle x 0 none).counter (rle x 0 none).lastByte).data,
      (rle y (rle x 0 none).counter (rle x 0 none).lastByte).counter,
      (rle y (rle x 0 none).counter (rle x 0 none).lastByte).lastByte⟩ := by
  rw [rle, List.foldl_append]
  exact Eq.trans (foldl_rleStep_data _ (rle x 0 none).data (rle x 0 none).counter (rle x 0 none).lastByte) rfl

theorem total_eq (d : List UInt8) :
    rleTotalSize (rle d 0 none).data.length (rle d 0 none).counter (rle d 0 none).lastByte
      = (rle1Encode d).length := by
  rw [rleTotalSize_eq, rle_eq]

/-- After another refill of the size the loop asks for, a block has at most 900005 bytes. -/
theorem size_bound (x y : List UInt8) (hR : (rle x 0 none).data.length ≤ 900000)
    (hy : y.length ≤ (900000 - (rle x 0 none).data.length) * 4 / 5) :
    (rle1Encode (x ++ y)).length ≤ 900005 := by
  have h1 : potential (rle (x ++ y) 0 none) ≤ potential (rle x 0 none) + 5 * y.length := by
    rw [rle, List.foldl_append]
    exact potential_fold y _ (rle_none x)
  have h2 := total_le_potential (rle (x ++ y) 0 none)
  rw [total_eq] at h2
  unfold potential at h1 h2
  have : min (rle x 0 none).counter 4 ≤ 4 := Nat.min_le_right _ _
  omega

theorem rle_data_lt (d : List UInt8) (h : d ≠ []) : (rle d 0 none).data.length < (rle1Encode d).length := by
  have := data_lt_total d d.length (by simpa using h)
  simpa [rleAt] using this

/-! ### the loop on any reader -/

/-- The variables of the refill loop are consistent. -/
structure FillInv (s : FillState) : Prop where
  data : s.rleData = (rle s.buf 0 none).data
  count : s.count = (rle s.buf 0 none).counter
  last : s.last = (rle s.buf 0 none).lastByte
  total : s.total = (rle1Encode s.buf).length
  size : (rle1Encode s.buf).length ≤ 900005

theorem fillLoop_total (ft : Bool) (fuel : Nat) (s : FillState) (h : FillInv s)
    (hf : eventsSize s.events < fuel) :
    ∃ s' fin, fillLoop ft fuel s = Res.ok (s', fin) ∧ FillInv s' := by
  induction fuel generalizing s with
  | zero => omega
  | succ fuel ih =>
    rw [fillLoop]
    split
    · rename_i hlt
      have hR : s.rleData.length ≤ 900000 := by
        rw [h.data]
        rw [h.total, rleLimit] at hlt
        by_cases hb : s.buf = []
        · rw [hb]; simp [rle]
        · have := rle_data_lt s.buf hb
          omega
      have : subU rleLimit s.rleData.length = Res.ok (900000 - s.rleData.length) := by
        unfold subU rleLimit; rw [if_pos hR]
      rw [this, Res.ok_bind]
      have hsz := readToEnd_size ft s.events ((900000 - s.rleData.length) * 4 / 5)
      dsimp only
      rcases hr : readToEnd ft s.events ((900000 - s.rleData.length) * 4 / 5) with ⟨bs, es, ok⟩
      rw [hr] at hsz
      cases ok with
      | false => exact ⟨_, _, rfl, ⟨h.data, h.count, h.last, h.total, h.size⟩⟩
      | true =>
        dsimp only
        split
        · exact ⟨_, _, rfl, ⟨h.data, h.count, h.last, h.total, h.size⟩⟩
        · rename_i hne
          have happ := rle_append s.buf bs
          rw [← h.count, ← h.last, ← h.data] at happ
          simp only at hsz
          refine ih _ ⟨?_, ?_, ?_, ?_, ?_⟩ (by dsimp only; omega)
          · simp only [happ]
          · simp only [happ]
          · simp only [happ]
          · simp only [← total_eq, happ, List.length_append]
          · exact size_bound _ _ (by rw [← h.data]; exact hR) (by rw [← h.data]; exact hsz.2)
    · exact ⟨s, false, rfl, h⟩

/-- Reading a block never fails; what is sent belongs to a non-empty piece of data whose encoding has
at most 900005 bytes. -/
theorem nextBlock_total (ft : Bool) (es : List REvent) :
    ∃ w es' fin, nextBlock ft es = Res.ok (w, es', fin) ∧
      ∀ work, w = some work → ∃ b, b ≠ [] ∧ work = workOf b ∧ (rle1Encode b).length ≤ 900005 := by
  obtain ⟨s, fin, h1, h2⟩ := fillLoop_total ft (eventsSize es + 2) ⟨[], [], 0, 0, none, es⟩
    ⟨rfl, rfl, rfl, by simp [rle1Encode, runs], by simp [rle1Encode, runs]⟩ (by dsimp only; omega)
  rw [nextBlock, h1, Res.ok_bind]
  dsimp only
  split
  · exact ⟨_, _, _, rfl, by simp⟩
  · rename_i hb
    refine ⟨_, _, _, rfl, ?_⟩
    intro work hw
    refine ⟨s.buf, by intro h; simp [h] at hb, ?_, h2.size⟩
    have := rle_eq s.buf
    rw [← h2.data, ← h2.count, ← h2.last] at this
    rw [this] at hw
    simpa [workOf] using hw.symm

theorem sendLoop_total (ft : Bool) (k : Nat) (es : List REvent) (fin : Bool) :
    ∃ (bs : List (List UInt8)) (es' : List REvent) (fin' : Bool), sendLoop ft k es fin = Res.ok (bs.map workOf, es', fin') ∧
      ∀ b ∈ bs, b ≠ [] ∧ (rle1Encode b).length ≤ 900005 := by
  induction k generalizing es fin with
  | zero => exact ⟨[], es, fin, rfl, by simp⟩
  | succ k ih =>
    obtain ⟨w, es', f, h1, h2⟩ := nextBlock_total ft es
    rw [sendLoop, h1, Res.ok_bind]
    dsimp only
    cases w with
    | none => exact ⟨[], _, _, rfl, by simp⟩
    | some work =>
      obtain ⟨b, hb, rfl, hs⟩ := h2 work rfl
      obtain ⟨bs, es'', fin', i1, i2⟩ := ih es' (fin || f)
      dsimp only
      rw [i1, Res.ok_bind]
      exact ⟨b :: bs, es'', fin', rfl, by
        intro x hx
        rcases List.mem_cons.1 hx with rfl | hx
        · exact ⟨hb, hs⟩
        · exact i2 x hx⟩

/-- Whatever the reader does: if the main loop ends, it has written some blocks one after the other. -/
theorem mainLoop_blocks (gen : Work → Res (List Bit)) (ft : Bool) (t fuel : Nat) (es : List REvent)
    (fin : Bool) (bw bw' : BitWriter) (crc crc' : BitVec 32)
    (h : mainLoop gen ft t fuel es fin bw crc = (bw', Res.ok crc')) :
    ∃ bs : List (List UInt8), flushLoop gen (bs.map workOf) bw crc = (bw', Res.ok crc') ∧
      ∀ b ∈ bs, b ≠ [] ∧ (rle1Encode b).length ≤ 900005 := by
  induction fuel generalizing es fin bw crc with
  | zero => simp [mainLoop] at h
  | succ fuel ih =>
    rw [mainLoop] at h
    split at h
    · exact ⟨[], h, by simp⟩
    · obtain ⟨bs, es', fin', h1, h2⟩ := sendLoop_total ft t es fin
      rw [h1] at h
      dsimp only at h
      rcases hfl : flushLoop gen (bs.map workOf) bw crc with ⟨bw1, r⟩
      rw [hfl] at h
      cases r with
      | ok c =>
        obtain ⟨bs', i1, i2⟩ := ih _ _ _ _ h
        refine ⟨bs ++ bs', ?_, ?_⟩
        · rw [List.map_append, flushLoop_append, hfl]; exact i1
        · intro b hb
          rcases List.mem_append.1 hb with hb | hb
          · exact h2 b hb
          · exact i2 b hb
      | err => simp at h
      | panic => simp at h
      | div => simp at h

theorem encodeStreamFuel_blocks (fuel : Nat) (dist : Distance) (r : Reader) (w w' : Writer) (t : Nat)
    (strategy : Strategy) (h : encodeStreamFuel fuel dist r w t strategy = (w', Res.ok ())) :
    ∃ bs : List (List UInt8), encodeBlocks dist strategy bs w = (w', Res.ok ()) ∧
      ∀ b ∈ bs, b ≠ [] ∧ (rle1Encode b).length ≤ 900005 := by
  unfold encodeStreamFuel at h
  unfold encodeBlocks
  rcases h1 : (BitWriter.fromWriter w).writeBits fileHeader with ⟨bw, rr⟩
  rw [h1] at h
  simp only [andThen_eq] at h ⊢
  cases rr with
  | ok a =>
    simp only [Res.unwrap_ok] at h ⊢
    rcases h2 : mainLoop (fun work => generateBlockData dist strategy work.crc work.rleTotal)
      r.failTail t fuel r.events false bw 0 with ⟨bw1, r1⟩
    rw [h2] at h
    cases r1 with
    | ok crc =>
      obtain ⟨bs, i1, i2⟩ := mainLoop_blocks _ _ _ _ _ _ _ _ _ _ h2
      refine ⟨bs, ?_, i2⟩
      rw [i1]
      exact h
    | err => simp at h
    | panic => simp at h
    | div => simp at h
  | err => simp at h
  | panic => simp at h
  | div => simp at h

end Ribzip2
