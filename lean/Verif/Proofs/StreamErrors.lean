import Verif.Proofs.StreamWriter
/- Readers that fail for ever; the block of 900005 bytes; termination of the main loop. -/
namespace Ribzip2
open Spec

/-! ### persistent errors -/

/-- The script never answers `Ok(0)`. -/
def NoEof (es : List REvent) : Prop := ∀ e ∈ es, e ≠ REvent.data []

theorem noEof_tail {e : REvent} {es : List REvent} (h : NoEof (e :: es)) : NoEof es :=
  fun x hx => h x (by simp [hx])

theorem readToEnd_noEof (es : List REvent) (limit : Nat) (h : NoEof es) :
    NoEof (readToEnd true es limit).2.1 ∧
      (1 ≤ limit → (readToEnd true es limit).2.2 = true → (readToEnd true es limit).1 ≠ []) := by
  induction es generalizing limit with
  | nil => cases limit <;> simp [readToEnd, NoEof]
  | cons e es ih =>
    cases limit with
    | zero => exact ⟨by simpa [readToEnd] using h, by simp⟩
    | succ l =>
      cases e with
      | intr => simpa [readToEnd] using ih (l + 1) (noEof_tail h)
      | fail => simpa [readToEnd] using noEof_tail h
      | data bs =>
        have hne : bs ≠ [] := by
          intro hb; subst hb; exact h _ (by simp) rfl
        have hb : bs.isEmpty = false := by simp [hne]
        rw [readToEnd, hb]
        simp only [Bool.false_eq_true, if_false]
        split
        · exact ⟨(ih _ (noEof_tail h)).1, fun _ _ => by simp [hne]⟩
        · refine ⟨?_, fun _ _ => by simp [hne]⟩
          intro x hx
          rcases List.mem_cons.1 hx with rfl | hx
          · intro hc
            simp only [REvent.data.injEq, List.drop_eq_nil_iff] at hc
            omega
          · exact noEof_tail h x hx

theorem fillLoop_noEof (fuel : Nat) (s : FillState) (h : FillInv s) (hn : NoEof s.events)
    (s' : FillState) (fin : Bool) (hr : fillLoop true fuel s = Res.ok (s', fin)) :
    fin = false ∧ NoEof s'.events := by
  induction fuel generalizing s with
  | zero => simp [fillLoop] at hr
  | succ fuel ih =>
    rw [fillLoop] at hr
    split at hr
    · rename_i hlt
      have hR : s.rleData.length ≤ 899998 := by
        rw [h.data]
        rw [h.total, rleLimit] at hlt
        by_cases hb : s.buf = []
        · rw [hb]; simp [rle]
        · have := rle_data_lt s.buf hb
          omega
      have : subU rleLimit s.rleData.length = Res.ok (900000 - s.rleData.length) := by
        unfold subU rleLimit; rw [if_pos (by omega)]
      rw [this, Res.ok_bind] at hr
      have hsz := readToEnd_size true s.events ((900000 - s.rleData.length) * 4 / 5)
      have hne := readToEnd_noEof s.events ((900000 - s.rleData.length) * 4 / 5) hn
      dsimp only at hr
      rcases hrd : readToEnd true s.events ((900000 - s.rleData.length) * 4 / 5) with ⟨bs, es, ok⟩
      rw [hrd] at hsz hr hne
      simp only at hne
      cases ok with
      | false =>
        simp only [Res.pure_eq, Res.ok.injEq, Prod.mk.injEq] at hr
        rw [← hr.1, ← hr.2]
        exact ⟨rfl, hne.1⟩
      | true =>
        dsimp only at hr
        have hb := hne.2 (by omega) rfl
        rw [if_neg (by simpa using hb)] at hr
        have happ := rle_append s.buf bs
        rw [← h.count, ← h.last, ← h.data] at happ
        refine ih _ ⟨?_, ?_, ?_, ?_, ?_⟩ hne.1 hr
        · simp only [happ]
        · simp only [happ]
        · simp only [happ]
        · simp only [← total_eq, happ, List.length_append]
        · exact size_bound _ _ (by rw [← h.data]; omega) (by rw [← h.data]; exact hsz.2)
    · simp only [Res.ok.injEq, Prod.mk.injEq] at hr
      rw [← hr.1, ← hr.2]
      exact ⟨rfl, hn⟩

theorem nextBlock_noEof (es : List REvent) (hn : NoEof es) (w : Option Work) (es' : List REvent)
    (fin : Bool) (hr : nextBlock true es = Res.ok (w, es', fin)) : fin = false ∧ NoEof es' := by
  rw [nextBlock] at hr
  obtain ⟨⟨s, f⟩, h1, h2⟩ := bind_eq_ok hr
  have := fillLoop_noEof _ _
    (⟨rfl, rfl, rfl, by simp [rle1Encode, runs], by simp [rle1Encode, runs]⟩ :
      FillInv ⟨[], [], 0, 0, none, es⟩) hn _ _ h1
  dsimp only at h2
  split at h2 <;>
  · simp only [Res.pure_eq, Res.ok.injEq, Prod.mk.injEq] at h2
    rw [← h2.2.1, ← h2.2.2]; exact this

theorem sendLoop_noEof (k : Nat) (es : List REvent) (hn : NoEof es) (ws : List Work)
    (es' : List REvent) (fin : Bool) (hr : sendLoop true k es false = Res.ok (ws, es', fin)) :
    fin = false ∧ NoEof es' := by
  induction k generalizing es ws es' fin with
  | zero =>
    simp only [sendLoop, Res.ok.injEq, Prod.mk.injEq] at hr
    rw [← hr.2.1, ← hr.2.2]; exact ⟨rfl, hn⟩
  | succ k ih =>
    rw [sendLoop] at hr
    obtain ⟨⟨w, es1, f⟩, h1, h2⟩ := bind_eq_ok hr
    obtain ⟨g1, g2⟩ := nextBlock_noEof es hn _ _ _ h1
    subst g1
    dsimp only at h2
    cases w with
    | none =>
      simp only [Res.pure_eq, Res.ok.injEq, Prod.mk.injEq] at h2
      rw [← h2.2.1, ← h2.2.2]; exact ⟨rfl, g2⟩
    | some work =>
      obtain ⟨⟨ws', es2, f2⟩, i1, i2⟩ := bind_eq_ok h2
      have := ih es1 g2 _ _ _ i1
      simp only [Res.pure_eq, Res.ok.injEq, Prod.mk.injEq] at i2
      obtain ⟨-, rfl, rfl⟩ := i2
      exact this

theorem mainLoop_noEof (gen : Work → Res (List Bit)) (t fuel : Nat) (es : List REvent) (hn : NoEof es)
    (bw : BitWriter) (crc : BitVec 32) (bw' : BitWriter) (crc' : BitVec 32) :
    mainLoop gen true t fuel es false bw crc ≠ (bw', Res.ok crc') := by
  induction fuel generalizing es bw crc with
  | zero => simp [mainLoop]
  | succ fuel ih =>
    intro h
    rw [mainLoop] at h
    simp only [Bool.false_eq_true, if_false] at h
    obtain ⟨bs, es', fin', h1, -⟩ := sendLoop_total true t es false
    obtain ⟨g1, g2⟩ := sendLoop_noEof t es hn _ _ _ h1
    subst g1
    rw [h1] at h
    dsimp only at h
    rcases hfl : flushLoop gen (bs.map workOf) bw crc with ⟨bw1, r⟩
    rw [hfl] at h
    cases r with
    | ok c => exact ih _ g2 _ _ h
    | err => simp at h
    | panic => simp at h
    | div => simp at h

theorem encodeStreamFuel_noEof (fuel : Nat) (dist : Distance) (es : List REvent) (hn : NoEof es)
    (w w' : Writer) (t : Nat) (strategy : Strategy) :
    encodeStreamFuel fuel dist ⟨es, true⟩ w t strategy ≠ (w', Res.ok ()) := by
  intro h
  unfold encodeStreamFuel at h
  simp only [andThen_eq] at h
  rcases h1 : (BitWriter.fromWriter w).writeBits fileHeader with ⟨bw, rr⟩
  rw [h1] at h
  cases rr with
  | ok a =>
    simp only [Res.unwrap_ok] at h
    rcases h2 : mainLoop (fun work => generateBlockData dist strategy work.crc work.rleTotal)
      true t fuel es false bw 0 with ⟨bw1, r1⟩
    rw [h2] at h
    cases r1 with
    | ok crc => exact mainLoop_noEof _ _ _ _ hn _ _ _ _ h2
    | err => simp at h
    | panic => simp at h
    | div => simp at h
  | err => simp at h
  | panic => simp at h
  | div => simp at h

/-! ### termination -/

/-- Bytes and events left. -/
def measureOf (es : List REvent) : Nat := eventsSize es + es.length

theorem readToEnd_measure (ft : Bool) (es : List REvent) (limit : Nat) :
    measureOf (readToEnd ft es limit).2.1 ≤ measureOf es ∧
      (1 ≤ limit → es ≠ [] → measureOf (readToEnd ft es limit).2.1 < measureOf es) := by
  induction es generalizing limit with
  | nil => cases limit <;> simp [readToEnd]
  | cons e es ih =>
    cases limit with
    | zero => simp [readToEnd]
    | succ l =>
      cases e with
      | intr =>
        have := (ih (l + 1)).1
        simp only [readToEnd, measureOf, eventsSize, List.length_cons] at *
        omega
      | fail => simp [readToEnd, measureOf, eventsSize]
      | data bs =>
        rw [readToEnd]
        split
        · simp [measureOf, eventsSize]; omega
        · split
          · have := (ih (l + 1 - bs.length)).1
            rcases hr : readToEnd ft es (l + 1 - bs.length) with ⟨a, b, c⟩
            rw [hr] at this
            simp only [measureOf, eventsSize, List.length_cons] at *
            omega
          · simp only [measureOf, eventsSize, List.length_cons, List.length_drop]
            omega

theorem fillLoop_measure (ft : Bool) (fuel : Nat) (s : FillState) (h : FillInv s) (s' : FillState)
    (fin : Bool) (hr : fillLoop ft fuel s = Res.ok (s', fin)) :
    measureOf s'.events ≤ measureOf s.events ∧
      (s.total < rleLimit → s.events ≠ [] → measureOf s'.events < measureOf s.events) ∧
      (ft = false → s.total < rleLimit → s.events = [] → fin = true ∧ s'.events = []) := by
  induction fuel generalizing s with
  | zero => simp [fillLoop] at hr
  | succ fuel ih =>
    rw [fillLoop] at hr
    split at hr
    · rename_i hlt
      have hR : s.rleData.length ≤ 899998 := by
        rw [h.data]
        rw [h.total, rleLimit] at hlt
        by_cases hb : s.buf = []
        · rw [hb]; simp [rle]
        · have := rle_data_lt s.buf hb
          omega
      have : subU rleLimit s.rleData.length = Res.ok (900000 - s.rleData.length) := by
        unfold subU rleLimit; rw [if_pos (by omega)]
      rw [this, Res.ok_bind] at hr
      have hsz := readToEnd_size ft s.events ((900000 - s.rleData.length) * 4 / 5)
      have hm := readToEnd_measure ft s.events ((900000 - s.rleData.length) * 4 / 5)
      have hpos : 1 ≤ (900000 - s.rleData.length) * 4 / 5 := by omega
      have hempty : ft = false → s.events = [] →
          readToEnd ft s.events ((900000 - s.rleData.length) * 4 / 5) = ([], [], true) := by
        intro h1 h2
        obtain ⟨k, hk⟩ : ∃ k, (900000 - s.rleData.length) * 4 / 5 = k + 1 := ⟨_, (Nat.sub_add_cancel hpos).symm⟩
        rw [h2, hk, h1]; rfl
      dsimp only at hr
      rcases hrd : readToEnd ft s.events ((900000 - s.rleData.length) * 4 / 5) with ⟨bs, es, ok⟩
      rw [hrd] at hsz hr hm hempty
      simp only at hm
      cases ok with
      | false =>
        simp only [Res.pure_eq, Res.ok.injEq, Prod.mk.injEq] at hr
        rw [← hr.1, ← hr.2]
        refine ⟨hm.1, fun _ => hm.2 hpos, fun h1 _ h2 => ?_⟩
        have := hempty h1 h2
        simp at this
      | true =>
        dsimp only at hr
        split at hr
        · simp only [Res.pure_eq, Res.ok.injEq, Prod.mk.injEq] at hr
          rw [← hr.1, ← hr.2]
          refine ⟨hm.1, fun _ => hm.2 hpos, fun h1 _ h2 => ?_⟩
          have := hempty h1 h2
          simp only [Prod.mk.injEq] at this
          exact ⟨rfl, this.2.1⟩
        · rename_i hb
          have happ := rle_append s.buf bs
          rw [← h.count, ← h.last, ← h.data] at happ
          have := ih _ ⟨by simp only [happ], by simp only [happ], by simp only [happ],
            by simp only [← total_eq, happ, List.length_append],
            size_bound _ _ (by rw [← h.data]; omega) (by rw [← h.data]; exact hsz.2)⟩ hr
          simp only at this
          refine ⟨by omega, fun _ hne => by have := hm.2 hpos hne; omega, fun h1 _ h2 => ?_⟩
          have := hempty h1 h2
          simp only [Prod.mk.injEq] at this
          rw [this.1] at hb
          simp at hb
    · rename_i hlt
      simp only [Res.ok.injEq, Prod.mk.injEq] at hr
      rw [← hr.1, ← hr.2]
      exact ⟨Nat.le_refl _, fun h => absurd h hlt, fun _ h => absurd h hlt⟩

theorem nextBlock_measure (ft : Bool) (es : List REvent) (w : Option Work) (es' : List REvent)
    (fin : Bool) (hr : nextBlock ft es = Res.ok (w, es', fin)) :
    measureOf es' ≤ measureOf es ∧ (es ≠ [] → measureOf es' < measureOf es) ∧
      (ft = false → es = [] → fin = true ∧ es' = []) := by
  rw [nextBlock] at hr
  obtain ⟨⟨s, f⟩, h1, h2⟩ := bind_eq_ok hr
  have := fillLoop_measure ft _ _
    (⟨rfl, rfl, rfl, by simp [rle1Encode, runs], by simp [rle1Encode, runs]⟩ :
      FillInv ⟨[], [], 0, 0, none, es⟩) _ _ h1
  simp only [rleLimit, show (0 : Nat) < 900000 by omega, true_implies] at this
  dsimp only at h2
  split at h2 <;>
  · simp only [Res.pure_eq, Res.ok.injEq, Prod.mk.injEq] at h2
    rw [← h2.2.1, ← h2.2.2]; exact this

theorem sendLoop_measure (k : Nat) (es : List REvent) (fin : Bool) (ws : List Work)
    (es' : List REvent) (fin' : Bool) (hr : sendLoop false k es fin = Res.ok (ws, es', fin')) :
    measureOf es' ≤ measureOf es ∧ (1 ≤ k → es ≠ [] → measureOf es' < measureOf es) ∧
      (1 ≤ k → es = [] → fin' = true) ∧ (fin = true → fin' = true) := by
  induction k generalizing es ws fin es' fin' with
  | zero =>
    simp only [sendLoop, Res.ok.injEq, Prod.mk.injEq] at hr
    rw [← hr.2.1, ← hr.2.2]; exact ⟨Nat.le_refl _, by simp, by simp, id⟩
  | succ k ih =>
    rw [sendLoop] at hr
    obtain ⟨⟨w, es1, f⟩, h1, h2⟩ := bind_eq_ok hr
    obtain ⟨g1, g2, g3⟩ := nextBlock_measure false es _ _ _ h1
    dsimp only at h2
    cases w with
    | none =>
      simp only [Res.pure_eq, Res.ok.injEq, Prod.mk.injEq] at h2
      rw [← h2.2.1, ← h2.2.2]
      refine ⟨g1, fun _ => g2, fun _ he => by simp [(g3 rfl he).1], fun h => by simp [h]⟩
    | some work =>
      obtain ⟨⟨ws', es2, f2⟩, i1, i2⟩ := bind_eq_ok h2
      obtain ⟨j1, j2, j3, j4⟩ := ih es1 _ _ _ _ i1
      simp only [Res.pure_eq, Res.ok.injEq, Prod.mk.injEq] at i2
      obtain ⟨-, rfl, rfl⟩ := i2
      exact ⟨by omega, fun _ he => by have := g2 he; omega,
        fun _ he => j4 (by simp [(g3 rfl he).1]), fun h => j4 (by simp [h])⟩

theorem flushLoop_ne_div (gen : Work → Res (List Bit)) (hgen : ∀ w, gen w ≠ Res.div)
    (works : List Work) (bw : BitWriter) (crc : BitVec 32) : (flushLoop gen works bw crc).2 ≠ Res.div := by
  induction works generalizing bw crc with
  | nil => simp [flushLoop]
  | cons w works ih =>
    rw [flushLoop, flushOne]
    cases hg : gen w with
    | ok bits =>
      simp only
      rcases bw.writeBits bits with ⟨bw1, r⟩
      cases r <;> simp [ih]
    | err => simp
    | panic => simp
    | div => exact absurd hg (hgen w)

theorem mainLoop_ne_div (gen : Work → Res (List Bit)) (hgen : ∀ w, gen w ≠ Res.div) (t : Nat)
    (ht : 1 ≤ t) (fuel : Nat) (es : List REvent) (fin : Bool) (bw : BitWriter) (crc : BitVec 32)
    (hf : measureOf es + 2 ≤ fuel) : (mainLoop gen false t fuel es fin bw crc).2 ≠ Res.div := by
  induction fuel generalizing es fin bw crc with
  | zero => omega
  | succ fuel ih =>
    rw [mainLoop]
    split
    · simp
    · obtain ⟨bs, es', fin', h1, -⟩ := sendLoop_total false t es fin
      obtain ⟨g1, g2, g3, g4⟩ := sendLoop_measure t es fin _ _ _ h1
      rw [h1]
      dsimp only
      have hd := flushLoop_ne_div gen hgen (bs.map workOf) bw crc
      rcases hfl : flushLoop gen (bs.map workOf) bw crc with ⟨bw1, r⟩
      rw [hfl] at hd
      cases r with
      | ok c =>
        dsimp only
        by_cases he : es = []
        · have := g3 ht he
          subst this
          obtain ⟨fuel, rfl⟩ : ∃ f, fuel = f + 1 := ⟨fuel - 1, by omega⟩
          simp [mainLoop]
        · exact ih _ _ _ _ (by have := g2 ht he; omega)
      | err => simp
      | panic => simp
      | div => exact absurd rfl hd

/-! ### the block of 900005 bytes -/

def pattern : List UInt8 := [1, 1, 1, 1, 0, 0, 0, 0]

def patterns : Nat → List UInt8
  | 0 => []
  | k + 1 => pattern ++ patterns k

theorem patterns_length (k : Nat) : (patterns k).length = 8 * k := by
  induction k with
  | zero => rfl
  | succ k ih => rw [patterns, List.length_append, ih]; simp [pattern]; omega

theorem patterns_add (a b : Nat) : patterns (a + b) = patterns a ++ patterns b := by
  induction a with
  | zero => simp [patterns]
  | succ a ih => rw [show a + 1 + b = (a + b) + 1 by omega, patterns, patterns, ih, List.append_assoc]

theorem fold_pattern (data : List UInt8) :
    pattern.foldl rleStep ⟨data, 4, some 0⟩ = ⟨data ++ [0, 0, 0, 0, 0, 1, 1, 1, 1, 0], 4, some 0⟩ := by
  rw [foldl_rleStep_data]
  have : pattern.foldl rleStep ⟨[], 4, some 0⟩ = ⟨[0, 0, 0, 0, 0, 1, 1, 1, 1, 0], 4, some 0⟩ := by
    decide +kernel
  rw [this]

theorem fold_patterns (k : Nat) (data : List UInt8) :
    ∃ more, (patterns k).foldl rleStep ⟨data, 4, some 0⟩ = ⟨data ++ more, 4, some 0⟩ ∧
      more.length = 10 * k := by
  induction k generalizing data with
  | zero => exact ⟨[], by simp [patterns], rfl⟩
  | succ k ih =>
    rw [patterns, List.foldl_append, fold_pattern]
    obtain ⟨more, h1, h2⟩ := ih (data ++ [0, 0, 0, 0, 0, 1, 1, 1, 1, 0])
    exact ⟨[0, 0, 0, 0, 0, 1, 1, 1, 1, 0] ++ more, by rw [h1]; simp, by simp [h2]; omega⟩

/-- Eight zero bytes, then runs of four bytes, `k` times two of them. -/
def longBlock (k : Nat) : List UInt8 := List.replicate 8 0 ++ pattern ++ patterns k

theorem rle_longBlock (k : Nat) : (rle (longBlock k) 0 none).data.length = 10 * (k + 1) ∧
    (rle (longBlock k) 0 none).counter = 4 ∧ (rle (longBlock k) 0 none).lastByte = some 0 := by
  unfold longBlock rle
  rw [List.foldl_append]
  have : (List.replicate 8 0 ++ pattern).foldl rleStep ⟨[], 0, none⟩
      = ⟨[0, 0, 0, 0, 4, 1, 1, 1, 1, 0], 4, some 0⟩ := by decide +kernel
  rw [this]
  obtain ⟨more, h1, h2⟩ := fold_patterns k [0, 0, 0, 0, 4, 1, 1, 1, 1, 0]
  rw [h1]
  refine ⟨?_, rfl, rfl⟩
  rw [List.length_append, h2]; simp; omega

theorem longBlock_size (k : Nat) : (rle1Encode (longBlock k)).length = 10 * (k + 1) + 5 := by
  obtain ⟨h1, h2, h3⟩ := rle_longBlock k
  rw [← total_eq, h1, h2, h3]; rfl

theorem longBlock_length (k : Nat) : (longBlock k).length = 8 * (k + 2) := by
  rw [longBlock, List.length_append, patterns_length]; simp [pattern]; omega

theorem longBlock_add (a b : Nat) : longBlock (a + b) = longBlock a ++ patterns b := by
  rw [longBlock, patterns_add, longBlock, ← List.append_assoc]

theorem cut_longBlock : cut (longBlock 89999) = (720008, false) := by
  generalize hd : longBlock 89999 = d
  have hlen : d.length = 720008 := by rw [← hd, longBlock_length]
  have htake : d.take 720000 = longBlock 89998 := by
    rw [← hd, show (89999 : Nat) = 89998 + 1 from rfl, longBlock_add]
    have hl : (longBlock 89998).length = 720000 := by rw [longBlock_length]
    rw [List.take_append_of_le_length (by omega), List.take_of_length_le (by omega)]
  have htake0 : d.take 0 = [] := List.take_zero
  rw [cut, hlen, cutLoop, htake0]
  have z1 : (rle1Encode []).length = 0 := rfl
  have z2 : (rleAt d 0).data.length = 0 := by rw [rleAt, htake0]; rfl
  rw [z1, if_pos (by omega), hlen, if_neg (by omega), z2]
  have m1 : 0 + min ((900000 - 0) * 4 / 5) (720008 - 0) = 720000 := by decide
  rw [m1, cutLoop, htake, longBlock_size, if_pos (by decide), hlen, if_neg (by omega)]
  have z3 : (rleAt d 720000).data.length = 899990 := by
    rw [rleAt, htake, (rle_longBlock 89998).1]
  rw [z3]
  have m2 : 720000 + min ((900000 - 899990) * 4 / 5) (720008 - 720000) = 720008 := by decide
  rw [m2, cutLoop, List.take_of_length_le (by omega), ← hd, longBlock_size, if_neg (by decide)]

end Ribzip2
